import Verif.Model.Handles
import Verif.Model.Threads
/-!
# Specification: the same history without threads
-/
namespace Nanvm
namespace Threads

/-- **Specification**: the operation of one thread that does the same as an action, on some handle -/
inductive Does : Act → HMem.Op → Prop
  | new (t) : Does (.new t) .new
  | clone (i j) : Does (.clone i) (.clone j)
  | drop (i j) : Does (.drop i) (.drop j)
  | toRef (i j) : Does (.toRef i) (.toRef j)
  | tryToMutRef (i j) : Does (.tryToMutRef i) (.tryToMutRef j)
  | read (i j) : Does (.read i) (.deref j)
  | write (i j) : Does (.write i) (.deref j)

/-- **Specification**: the actions of a schedule in their order as operations of one thread; giving a
handle away is nothing, and the deletion belongs to the `drop` before it -/
inductive InOrder : List Act → List HMem.Op → Prop
  | nil : InOrder [] []
  | does {a op as ops} : Does a op → InOrder as ops → InOrder (a :: as) (op :: ops)
  | send {i t as ops} : InOrder as ops → InOrder (.send i t :: as) ops
  | delete {i as ops} : InOrder as ops → InOrder (.delete i :: as) ops

/-- **Specification**: the handles of all threads as handles of one thread; a `drop` that is about to
delete its block has no handle any more -/
def asOne : Handle → Option (_root_.Nanvm.Handle)
  | ⟨_, b, .ref⟩ => some (.ref b)
  | ⟨_, b, .mutRef⟩ => some (.mutRef b)
  | ⟨_, _, .deleting⟩ => none

/-- **Specification**: a handle of one thread as a handle of the thread `t` -/
def ofOne (t : Nat) : _root_.Nanvm.Handle → Handle
  | .ref b => ⟨t, b, .ref⟩
  | .mutRef b => ⟨t, b, .mutRef⟩

end Threads
end Nanvm
