import Verif.Model.Path
/-!
# The unit tests of `parser/path.rs`

Written by `tools/repotests.py`.
-/
namespace Nanvm
namespace RepoTests
open Path

/-- `test_norm`, path.rs:50 -/
example :
    normalize "../../dir/file.json".toList = "../../dir/file.json".toList ∧
    normalize "../../dir/../file.json".toList = "../../file.json".toList := by
  decide +kernel

/-- `test_concat`, path.rs:60 -/
example :
    concat "a".toList "b".toList = "a/b".toList ∧
    concat "a///b/".toList "c".toList = "a/b/c".toList ∧
    concat "a/../b/..".toList "c".toList = "c".toList := by
  decide +kernel

end RepoTests
end Nanvm
