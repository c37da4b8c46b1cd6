#!/usr/bin/env python3
"""Translates the unit tests of /repo into Lean examples about the model (lean/Verif/Tests).

The tests of the repository are regular: they bind values, call one operation and compare parts of
the result.  Every `assert` becomes one conjunct of an `example`; `#[should_panic]` becomes a
statement that the operation is a panic."""
import re, sys
SRC = '/repo/nanvm-lib/src/'
OUT = '/verif/lean/Verif/Tests/'

def tests(path):
    s = open(SRC + path).read()
    i = s.index('#[cfg(test)]')
    out = []
    for m in re.finditer(r'((?:    #\[[^\n]*\]\n)+)    fn (\w+)\(\)(?: -> [^{]*)? \{\n(.*?)\n    \}\n', s[i:], re.S):
        line = s[:i + m.start(2)].count('\n') + 1
        out.append((m.group(2), 'should_panic' in m.group(1), m.group(3), line))
    return out

def num(x):
    x = x.strip().replace('_u64', '').replace('u64::MAX', '(2 ^ 64 - 1)').replace('i64::MIN', '(-2 ^ 63)').replace('i64::MAX', '(2 ^ 63 - 1)')
    x = re.sub(r'(\d+)\s*<<\s*(\w+)', r'\1 * 2 ^ \2', x)
    return x.replace('_', '') if re.fullmatch(r'[0-9_]+', x) else x

def lst(x):
    x = x.strip()
    return '[' + ', '.join(num(y) for y in x.split(',') if y.strip()) + ']' if x else '[]'

def statements(body):
    body = re.sub(r'//[^\n]*', '', body)
    out, cur, d = [], '', 0
    for c in body:
        if c in '([': d += 1
        if c in ')]': d -= 1
        if d == 0 and c in '{}': continue
        if c == ';' and d == 0:
            out.append(' '.join(cur.split())); cur = ''
        else: cur += c
    if cur.strip(): out.append(' '.join(cur.split()))
    return [x for x in out if x]

def write(name, imports, intro, items, opens=''):
    with open(OUT + name + '.lean', 'w') as f:
        for i in imports: f.write(f'import {i}\n')
        f.write(f'/-!\n{intro}\n\nWritten by `tools/repotests.py`.\n-/\nnamespace Nanvm\nnamespace RepoTests\n{opens}\n')
        for (doc, conj, by) in items:
            f.write(f'/-- {doc} -/\nexample :\n    ' + ' ∧\n    '.join(conj) + f' := by\n  {by}\n\n')
        f.write('end RepoTests\nend Nanvm\n')
    print(name, len(items), 'tests', sum(len(c) for _, c, _ in items), 'assertions')

# ---------------------------------------------------------------- js_bigint.rs
def jsbigint():
    RES = {'mul', 'shl', 'shr', 'pow'}
    sg = {'Positive': '.pos', 'Negative': '.neg'}
    items = []
    for name, panics, body, line in tests('js/js_bigint.rs'):
        env, conj, pend = {}, [], None
        def expr(e):
            m = re.fullmatch(r'from_u64\(Global\(\), Sign::(\w+), (.*)\)', e)
            if m: return ('v', f'(fromU64 {sg[m[1]]} ({num(m[2])}))')
            m = re.fullmatch(r'new_bigint\(Global\(\), Sign::(\w+), \[(.*)\]\)', e)
            if m: return ('v', f'(new {sg[m[1]]} {lst(m[2])})')
            if e == 'zero(Global())': return ('v', 'zero')
            m = re.fullmatch(r'(\w+)\.deref\(\)', e) or re.fullmatch(r'A::move_from\((\w+)\)', e) or \
                re.fullmatch(r'(\w+)\.try_move::<BigintRef>\(\)\.unwrap\(\)', e) or re.fullmatch(r'(\w+)\.to_ref\(\)', e)
            if m: return env[m[1]]
            m = re.fullmatch(r'(\w+)\(Global\(\), (\w+)(?:, (\w+))?\)(?:\.to_ref\(\))?', e)
            if m:
                args = [env[x][1] for x in m.groups()[1:] if x]
                if m[1] == 'div_mod': return ('dm', f'divMod 64 {args[0]} {args[1]}')
                return ('r' if m[1] in RES else 'v', f'({m[1]} {" ".join(args)})')
            raise Exception(e)
        cur = None
        def res(x):
            k, e = x
            return e if k == 'r' else f'.ok {e}'
        for st in statements(body):
            if st.startswith('type '): continue
            m = re.fullmatch(r'let (\w+)(?:: \w+)? = (.*)', st)
            if m:
                x = expr(m[2]); env[m[1]] = x
                if panics and x[0] in ('r', 'dm'): conj.append(f'{x[1]} = .error (.panic .explicit)')
                continue
            m = re.fullmatch(r'let \((\w+), (\w+)\) = (.*)', st)
            if m:
                x = expr(m[3])
                env[m[1]] = ('r', f'(Prod.fst <$> {x[1]})'); env[m[2]] = ('r', f'(Prod.snd <$> {x[1]})')
                continue
            if 'get_type()' in st: continue
            m = re.fullmatch(r'assert_eq!\((\w+)\.compare\((\w+)\), Ordering::(\w+)\)', st)
            if m:
                conj.append(f"compare {env[m[1]][1]} {env[m[2]][1]} = {dict(Equal='.eq', Less='.lt', Greater='.gt')[m[3]]}"); continue
            m = re.fullmatch(r'assert_eq!\((\w+)\.sign\(\), Sign::(\w+)\)', st)
            if m: conj.append(f'sign <$> ({res(env[m[1]])} : Res JsBig) = .ok {sg[m[2]]}'); continue
            m = re.fullmatch(r'assert_eq!\((\w+)\.items\(\), &\[(.*)\]\)', st)
            if m: conj.append(f'items <$> ({res(env[m[1]])} : Res JsBig) = .ok {lst(m[2])}'); continue
            m = re.fullmatch(r'assert!\((\w+)\.items\(\)\.is_empty\(\)\)', st)
            if m: conj.append(f'items <$> ({res(env[m[1]])} : Res JsBig) = .ok []'); continue
            raise Exception(st)
        items.append((f'`{name}`, js_bigint.rs:{line}', conj, 'decide +kernel'))
    write('JsBigint', ['Verif.Model.JsBigint'], '# The unit tests of `js/js_bigint.rs`', items, 'open JsBig\n')

# ---------------------------------------------------------------- big_uint.rs, big_int.rs
ORD = dict(Equal='.eq', Less='.lt', Greater='.gt')

def arith(path, name, pre, res, imports, opens):
    """tests that bind `a`, `b` and compare `result` with a value"""
    items = []
    opn = {'+': 'add', '-': 'sub', '*': 'mul', '/': 'div 64', '<<': 'shl', '>>': 'shr'}
    for tname, panics, body, line in tests(path):
        body = pre(' '.join(body.split()))
        env, conj = {}, []
        def val(e):
            e = e.strip().lstrip('&').replace('.clone()', '').rstrip(',').strip()
            return env.get(e, e)
        def expr(e):
            m = re.fullmatch(r'(&?\S+) (\+|-|\*|/|<<|>>) (&?\S+)', e)
            if m:
                o = opn[m[2]]
                return (o.split()[0] in res, f'{o} {val(m[1])} {val(m[3])}')
            m = re.fullmatch(r'(\w+)\.div_mod\((.*)\)', e)
            if m: return (True, f'divMod 64 {val(m[1])} {val(m[2])}')
            m = re.fullmatch(r'(\w+)\.pow_u64\((\d+)\)', e)
            if m: return (True, f'powU64 {val(m[1])} {m[2]}')
            m = re.fullmatch(r'(\w+)\.pow\((.*)\)', e)
            if m: return (True, f'pow {val(m[1])} {val(m[2])}')
            raise Exception(e)
        last = None
        for st in statements(body):
            m = re.fullmatch(r'let (_?result) = (.*)', st)
            if m:
                last = expr(m[2])
                if panics: conj.append(f'{last[1]} = .error (.panic .explicit)')
                continue
            m = re.fullmatch(r'let (\w+) = (.*)', st)
            if m: env[m[1]] = val(m[2]); continue
            m = re.fullmatch(r'assert_eq!\((\w+)\.cmp\(&(\w+)\), Ordering::(\w+)\)', st)
            if m: conj.append(f'cmp {env[m[1]]} {env[m[2]]} = {ORD[m[3]]}'); continue
            m = re.fullmatch(r'assert_eq!\( ?&?result, (.*?),? ?\)', st)
            if m:
                v = m[1]
                if v.startswith('('):
                    v = '(' + ', '.join(val(x) for x in re.split(r', (?![^\[⟨(]*[\]⟩)])', v[1:-1].strip())) + ')'
                else: v = val(v)
                conj.append(f'{last[1]} = ' + (f'.ok {v}' if last[0] else v)); continue
            raise Exception(st)
        items.append((f'`{tname}`, {path.split("/")[-1]}:{line}', conj, 'decide +kernel'))
    write(name, imports, f'# The unit tests of `{path}`', items, opens)

def biguint():
    def pre(b):
        b = re.sub(r'BigUint \{ value: \[([^\]]*)\]\.cast\(\),? \}', lambda m: lst(m[1]).replace(' ', ''), b)
        return b.replace('BigUint::ZERO', '[]').replace('BigUint::one()', 'one')
    arith('big_numbers/big_uint.rs', 'BigUint', pre, {'mul', 'div', 'shl'}, ['Verif.Model.BigUint'], 'open BigUint\n')

def bigint():
    def pre(b):
        b = re.sub(r'BigInt \{ sign: Sign::(\w+), value: BigUint \{ value: \[([^\]]*)\]\.cast\(\),? \},? \}',
                   lambda m: f"(⟨{dict(Positive='.pos', Negative='.neg')[m[1]]},{lst(m[2]).replace(' ', '')}⟩:BInt)", b)
        b = re.sub(r'BigInt::from_u64\(([^()]*)\)', lambda m: '⟪fromU64~(' + num(m[1]).replace(' ', '~') + ')⟫', b)
        b = re.sub(r'BigInt::from_i64\(([^()]*)\)', lambda m: '⟪get~' + f'({m[1]})' + '⟫', b)
        return b.replace('BigInt::ZERO', 'BInt.zero').replace('⟪', '(').replace('⟫', ')')
    arith('big_numbers/big_int.rs', 'BigInt', pre, {'mul', 'div'}, ['Verif.Model.BigInt'],
          'open BInt\n\n/-- `from_i64` of a number that is not `i64::MIN` -/\ndef get (n : Int) : BInt :=\n'
          '  match fromI64 n with\n  | .ok b => b\n  | .error _ => ⟨.neg, []⟩\n')
    f = OUT + 'BigInt.lean'; t = open(f).read().replace('~', ' '); open(f, 'w').write(t)

# ---------------------------------------------------------------- big_float.rs
def f64bits(e):
    import struct
    e = e.replace('f64', '').replace('_', '')
    v = eval(re.sub(r'([\d.]+)\.powf\(([^()]*)\)', r'(\1 ** (\2))', e))
    return struct.unpack('<Q', struct.pack('<d', v))[0]

def bigfloat():
    sg = {'Positive': '.pos', 'Negative': '.neg'}
    items = []
    for tname, panics, body, line in tests('big_numbers/big_float.rs'):
        body = ' '.join(re.sub(r'//[^\n]*', '', body).split())
        if tname == 'test_rust_cast':
            conj = []
            for n in re.findall(r'test\((\d+)\);', body):
                conj.append(f'f64Bits 4000 ⟨fromU64 .pos {n}, .pos, 0, false⟩ = .ok {f64bits("float(" + n + ")")}')
            items.append((f'`{tname}`, big_float.rs:{line}; the conversion of Rust is computed by the script', conj, 'decide +kernel')); continue
        def big(m):
            s = m[1]
            k = re.fullmatch(r'from_u64\(GLOBAL, Sign::(\w+), (.*)\)', s)
            s = f'fromU64 {sg[k[1]]} ({num(k[2])})' if k else s
            k = re.fullmatch(r'new_bigint\(GLOBAL, Sign::(\w+), \[(.*)\]\)', s)
            s = f'new {sg[k[1]]} {lst(k[2])}' if k else s
            s = 'JsBig.zero' if s == 'zero(GLOBAL)' else s
            return f'⟨{s}, {sg[m[2]]}, {m[3]}, {m[4]}⟩ '
        body = re.sub(r'BigFloat \{ manager: GLOBAL, significand: (.*?), sign: Sign::(\w+), exp: ([^,]*), non_zero_reminder: (\w+), \} ', big, body)
        body = body.replace('float_zero(GLOBAL)', 'BigFloat.zero ')
        cur, conj = None, []
        for st in statements(body):
            if st.startswith('type ') or 'get_type' in st or st.startswith('let any') or st.startswith('let o'): continue
            m = re.fullmatch(r'let res = (.*) \.to_bin\((\d+)\)', st)
            if m: cur = f'toBin 4000 {m[2]} {m[1]}'; continue
            m = re.fullmatch(r'let res = (.*) \.to_f64\(\)', st)
            if m: cur = f'f64Bits 4000 {m[1]}'; continue
            m = re.fullmatch(r'assert_eq!\(o\.sign\(\), Sign::(\w+)\)', st)
            if m: conj.append(f'(fun b : BigFloat => b.sig.sign) <$> {cur} = .ok {sg[m[1]]}'); continue
            m = re.fullmatch(r'assert_eq!\(o\.items\(\), &\[(.*)\]\)', st)
            if m:
                v = re.sub(r'0b([01_]+)', lambda k: str(int(k[1].replace('_', ''), 2)), m[1])
                conj.append(f'(fun b : BigFloat => b.sig.items) <$> {cur} = .ok {lst(v)}'); continue
            if st == 'assert!(o.items().is_empty())': conj.append(f'(fun b : BigFloat => b.sig.items) <$> {cur} = .ok []'); continue
            m = re.fullmatch(r'assert_eq!\(res\.exp, (.*)\)', st)
            if m: conj.append(f'BigFloat.exp <$> {cur} = .ok ({m[1]})'); continue
            m = re.fullmatch(r'assert!\((!?)res\.non_zero_reminder\)', st)
            if m: conj.append(f'BigFloat.rem <$> {cur} = .ok {"false" if m[1] else "true"}'); continue
            m = re.fullmatch(r'assert_eq!\(res, (.*)\)', st)
            if m:
                # -0.0 == 0.0
                b = f64bits(m[1])
                conj.append(f'(· % 2 ^ 63) <$> {cur} = .ok 0' if b == 0 else f'{cur} = .ok {b}'); continue
            m = re.fullmatch(r'assert_eq!\(res\.to_bits\(\), (.*)\)', st)
            if m: conj.append(f'{cur} = .ok {eval(m[1])}'); continue
            m = re.fullmatch(r'assert!\(res\.is_(\w+)\(\)\)', st)
            if m:
                f = dict(sign_positive='n / 2 ^ 63 = 0', sign_negative='n / 2 ^ 63 = 1',
                         infinite='n % 2 ^ 63 = 2047 * 2 ^ 52',
                         normal='n / 2 ^ 52 % 2 ^ 11 ≠ 0 ∧ n / 2 ^ 52 % 2 ^ 11 ≠ 2047',
                         subnormal='n / 2 ^ 52 % 2 ^ 11 = 0 ∧ n % 2 ^ 52 ≠ 0')[m[1]]
                conj.append(f'(fun n : Nat => decide ({f})) <$> {cur} = .ok true'); continue
            raise Exception(st)
        conj = [re.sub(r'0b([01_]+)', lambda k: str(int(k[1].replace('_', ''), 2)), c) for c in conj]
        items.append((f'`{tname}`, big_float.rs:{line}', conj, 'decide +kernel'))
    write('BigFloat', ['Verif.Model.BigFloat'], '# The unit tests of `big_numbers/big_float.rs`', items, 'open BigFloat JsBig\n')

# ---------------------------------------------------------------- text
def rust_str(lit):
    """the characters of a Rust string literal"""
    out, i = '', 1
    while i < len(lit) - 1:
        if lit[i] == '\\':
            c = lit[i + 1]
            if c == 'u':
                j = lit.index('}', i); out += chr(int(lit[i + 3:j], 16)); i = j + 1; continue
            if c == '\n':
                i += 2
                while lit[i] in ' \n': i += 1
                continue
            out += {'n': '\n', 't': '\t', 'r': '\r', '0': '\0'}.get(c, c); i += 2
        else: out += lit[i]; i += 1
    return out

def lean_str(s):
    esc = {'\n': '\\n', '\t': '\\t', '\r': '\\r', '"': '\\"', '\\': '\\\\'}
    return '"' + ''.join(esc.get(c, c if ord(c) >= 32 else '\\x%02x' % ord(c)) for c in s) + '"'

STR = r'"(?:[^"\\]|\\.|\\\n)*"'

def split_top(x):
    out, cur, d, q = [], '', 0, False
    i = 0
    while i < len(x):
        c = x[i]
        if q:
            cur += c
            if c == '\\': cur += x[i + 1]; i += 1
            elif c == '"': q = False
        elif c == '"': q = True; cur += c
        elif c == ',' and d == 0: out.append(cur.strip()); cur = ''
        else:
            if c in '([{<': d += 1
            if c in ')]}>': d -= 1
            cur += c
        i += 1
    if cur.strip(): out.append(cur.strip())
    return out

def tstatements(body):
    """statements, with string literals left alone"""
    out, cur, d, i = [], '', 0, 0
    while i < len(body):
        m = re.compile(STR, re.S).match(body, i)
        if m: cur += m[0]; i = m.end(); continue
        if body.startswith("b'", i) or body.startswith("'", i):
            m = re.compile(r"b?'(?:[^'\\]|\\.)'").match(body, i)
            if m: cur += m[0]; i = m.end(); continue
        if body.startswith('//', i):
            i = body.index('\n', i) if '\n' in body[i:] else len(body); continue
        c = body[i]
        if c in '([': d += 1
        if c in ')]': d -= 1
        if c == ';' and d == 0: out.append(cur.strip()); cur = ''
        elif c in '{}' and d == 0 and cur.strip() == '': pass
        else: cur += ' ' if c == '\n' else c
        i += 1
    if cur.strip(): out.append(cur.strip())
    return [re.sub(r' {2,}', ' ', x) if '"' not in x else x for x in out if x]

def token(t):
    t = t.strip().replace('JsonToken::<Global>::', '').replace('JsonToken::', '')
    m = re.fullmatch(rf'Id\(String::from\(({STR})\)\)', t, re.S)
    if m: return f'.id {lean_str(rust_str(m[1]))}.toList'
    if t == 'String(String::default())': return '.string []'
    m = re.fullmatch(r'BigInt\(new_bigint\( *GLOBAL, *Sign::(\w+), *\[(.*?)\] *\)\)', t)
    if m: return f".bigInt (JsBig.new {dict(Positive='.pos', Negative='.neg')[m[1]]} {lst(m[2])})"
    m = re.fullmatch(rf'String\(({STR})\.to_string\(\)\)', t, re.S) or re.fullmatch(rf'String\(String::from\(({STR})\)\)', t, re.S)
    if m: return f'.string {lean_str(rust_str(m[1]))}.toList'
    m = re.fullmatch(r'Number\((.*)\)', t, re.S)
    if m:
        x = m[1]
        if 'BigFloat' in x:
            k = re.search(r'new_bigint\(GLOBAL, Sign::Positive, \[(.*?)\]\)', x)
            return f'.number (bits ⟨JsBig.new .pos {lst(k[1])}, .pos, 0, false⟩)'
        x = x.replace('f64::INFINITY', 'float("inf")').replace('f64::NEG_INFINITY', 'float("-inf")')
        return f'.number {f64bits(x)}'
    m = re.fullmatch(r'ErrorToken\(ErrorType::(\w+)\)', t)
    if m: return '.error .' + m[1][0].lower() + m[1][1:]
    if t == 'BigInt(zero(GLOBAL))': return '.bigInt JsBig.zero'
    m = re.fullmatch(r'BigInt\(from_u64\( *GLOBAL, *Sign::(\w+), *(\d+) *\)\)', t)
    if m: return f".bigInt (JsBig.fromU64 {dict(Positive='.pos', Negative='.neg')[m[1]]} {m[2]})"
    assert re.fullmatch(r'\w+', t), t
    return '.' + t[0].lower() + t[1:]

def tokenizer():
    items = []
    for tname, panics, body, line in tests('tokenizer/mod.rs'):
        cur, conj = None, []
        for st in tstatements(body):
            m = re.fullmatch(rf'let result = tokenize\(\s*GLOBAL,\s*String::from\(({STR})\),?\s*\)', st, re.S)
            if m: cur = f'toks {lean_str(rust_str(m[1]))}'; continue
            if st == 'assert_eq!(result.len(), 0)': conj.append(f'{cur} = .ok []'); continue
            m = re.fullmatch(r'assert_eq!\(result\[0\], (.*)\)', st)
            if m: conj.append(f'(·[0]?) <$> {cur} = .ok (some {token(m[1])})'); continue
            m = re.fullmatch(r'assert_eq!\(\s*&result,\s*&\[(.*)\]\s*\)', st, re.S)
            if m: conj.append(f'{cur} = .ok [' + ', '.join(token(x) for x in split_top(m[1])) + ']'); continue
            raise Exception(st)
        items.append((f'`{tname}`, tokenizer/mod.rs:{line}', conj, 'decide +kernel'))
    write('Tokenizer', ['Verif.Model.Tokenizer'], '# The unit tests of `tokenizer/mod.rs`', items,
          'open Tok\n\n/-- the double `-0.0` equals `0.0` -/\ndef sameZero : Token → Token\n  | .number n => .number (if n = 2 ^ 63 then 0 else n)\n  | t => t\n\n'
          'def toks (s : String) : Res (List Token) := (·.map sameZero) <$> tokenize (BigFloat.toF64 4000) s.toList\n\n'
          'def bits (b : BigFloat) : Nat :=\n  match BigFloat.toF64 4000 b with\n  | .ok n => n\n  | .error _ => 0\n')

def path():
    items = []
    for tname, panics, body, line in tests('parser/path.rs'):
        cur, conj = None, []
        for st in tstatements(body):
            m = re.fullmatch(rf'let \w+ = (\w+)\(({STR})(?:, ({STR}))?\)', st)
            if m: cur = m[1] + ' ' + ' '.join(f'{lean_str(rust_str(x))}.toList' for x in m.groups()[1:] if x); continue
            m = re.fullmatch(rf'assert_eq!\(\w+, ({STR})\)', st)
            conj.append(f'{cur} = {lean_str(rust_str(m[1]))}.toList')
        items.append((f'`{tname}`, path.rs:{line}', conj, 'decide +kernel'))
    write('Path', ['Verif.Model.Path'], '# The unit tests of `parser/path.rs`', items, 'open Path\n')

# ---------------------------------------------------------------- range_map.rs
def rangemap():
    items = []
    def val(v):
        v = v.strip().lstrip('&')
        v = re.sub(r"State \{ value: (None|Some\('(.)'\)),? \}", lambda m: 'none' if m[1] == 'None' else f"(some '{m[2]}')", v)
        return v
    def maps(x):
        x = ' '.join(x.split())
        x = re.sub(r"Entry \{ key: (\d+), value: (State \{ value: (?:None|Some\('.'\)),? \}|'.'),? \}", lambda m: f'({m[1]}, {val(m[2])})', x)
        x = x.replace('default()', '[]').replace('.cast()', '').replace(' .cast()', '')
        x = re.sub(r'RangeMap \{ list: (\[.*?\]) ?,? \}', r'\1', x)
        return x.strip()
    for tname, panics, body, line in tests('range_map.rs'):
        env, conj, cur = {}, [], None
        for st in tstatements(body):
            st = ' '.join(st.split())
            m = re.fullmatch(r'let (a|b|list) = (.*)', st)
            if m: env[m[1]] = maps(m[2]).replace(',]', ']').replace(', ]', ' ]'); continue
            if st in ("let state = 'A'", "let range = 'b'..='d'") or st.startswith('let rm') and 'RangeMap' in st: continue
            if st == 'let rm = from_range(range, state)': cur = ("fromRange 'b'.toNat 'd'.toNat 'A'",); continue
            if st == "let rm = from_one('b', state)": cur = ("fromOne 'b'.toNat 'A'",); continue
            m = re.fullmatch(r"assert_eq!\(rm\.get\('(.)'\), (.*)\)", st)
            if m: conj.append(f"({cur[0]} >>= fun m => getState m '{m[1]}'.toNat) = .ok {val(m[2])}"); continue
            m = re.fullmatch(r'let result = rm\.get\((\d+)\)', st)
            if m: cur = f'RangeMap.get ({env["list"]} : List (Entry Char)) {m[1]}'; continue
            m = re.fullmatch(r"assert_eq!\(result, &'(.)'\)", st)
            if m: conj.append(f"{cur} = .ok (some '{m[1]}')"); continue
            if st == 'assert_eq!(*result, 0 as char)': conj.append(f'{cur} = .ok none'); continue
            m = re.fullmatch(r'let _?result = merge\(a, b\)', st)
            if m:
                cur = f'merge ({env["a"]} : List (Entry (Option Char))) {env["b"]}'
                if panics: conj.append(f'{cur} = .error (.panic .explicit)')
                continue
            m = re.fullmatch(r'let result: RangeMap<i32, State<char>> = merge_list\((.*)\)', st)
            if m: cur = f'mergeList ({maps(m[1]).rstrip(",").strip().replace(", ]", "]")} : List (List (Entry (Option Char))))'; continue
            m = re.fullmatch(r'assert_eq!\(result\.list\.len\(\), (\d+)\)', st)
            if m: conj.append(f'List.length <$> {cur} = .ok {m[1]}'); continue
            m = re.fullmatch(r'assert_eq!\(result\.list\[(\d)\]\.key, (\d+)\)', st)
            if m: conj.append(f'(fun l => (l[{m[1]}]?).map Prod.fst) <$> {cur} = .ok (some {m[2]})'); continue
            m = re.fullmatch(r'assert_eq!\(result\.list\[(\d)\]\.value, (.*)\)', st)
            if m: conj.append(f'(fun l => (l[{m[1]}]?).map Prod.snd) <$> {cur} = .ok (some {val(m[2])})'); continue
            raise Exception(st)
        items.append((f'`{tname}`, range_map.rs:{line}', conj, 'decide +kernel'))
    write('RangeMap', ['Verif.Model.RangeMap'], '# The unit tests of `range_map.rs`', items, 'open RangeMap\n')

# ---------------------------------------------------------------- parser.rs
TEST = '/repo/nanvm-lib/test/'
PARSER_PRE = """open Tok Parser

def fileSystem (files : List (String × String)) (p : Text) : Option Text :=
  (files.find? fun f => f.1.toList = p).map fun f => f.2.toList

abbrev Out := Res Outcome

/-- `parse_with_virtual_io` -/
def ofTokens (ts : List Token) : Out :=
  (·.2) <$> parseWithTokens ⟨fileSystem [], BigFloat.toF64 4000, []⟩ 100 Ctx.empty ts

/-- `tokenize`, then `parse_with_virtual_io` -/
def ofText (s : String) : Out := do
  ofTokens (← tokenize (BigFloat.toF64 4000) s.toList)

/-- `parse` with some files; the current directory is the empty path -/
def ofFile (files : List (String × String)) (p : String) : Out :=
  (·.2) <$> parse ⟨fileSystem files, BigFloat.toF64 4000, Path.concat [] p.toList⟩ 100 Ctx.empty

def Out.isOk : Out → Bool
  | .ok (.ok _) => true
  | _ => false
def Out.isErr : Out → Bool
  | .ok (.error _) => true
  | _ => false
def Out.err : Out → Option ParseError
  | .ok (.error e) => some e
  | _ => none
def Out.dataType : Out → Option DataType
  | .ok (.ok (t, _)) => some t
  | _ => none
def Out.any : Out → Option Val
  | .ok (.ok (_, v)) => some v
  | _ => none
def isNull : Option Val → Bool
  | some .null => true
  | _ => false
def asBool : Option Val → Option Bool
  | some (.bool b) => some b
  | _ => none
def asNum : Option Val → Option Nat
  | some (.num b) => some b
  | _ => none
def asStr : Option Val → Option JsStr
  | some (.str _ s) => some s
  | _ => none
def asBig : Option Val → Option JsBig
  | some (.big _ s) => some s
  | _ => none
def noItems : Option Val → Bool
  | some (.arr _ []) => true
  | some (.obj _ []) => true
  | _ => false
def item (n : Nat) : Option Val → Option Val
  | some (.arr _ l) => l[n]?
  | _ => none
def key (n : Nat) : Option Val → Option JsStr
  | some (.obj _ l) => l[n]?.map Prod.fst
  | _ => none
def value (n : Nat) : Option Val → Option Val
  | some (.obj _ l) => l[n]?.map Prod.snd
  | _ => none
"""

def parser():
    src = open(SRC + 'parser/parser.rs').read()
    fns = {m[1]: m[2] for m in re.finditer(r'\n    fn (\w+)[^{]*\{\n(.*?)\n    \}\n', src[src.index('#[cfg(test)]'):], re.S)}
    items = []
    low = lambda x: '.' + x[0].lower() + x[1:]
    for tname, panics, body, line in tests('parser/parser.rs'):
        m = re.fullmatch(r'\s*(\w+)\(GLOBAL\);', body)
        if m: body = fns[m[1]]
        env, conj, files, strs, paths = {}, [], [], {}, {}
        for st in tstatements(body):
            st = re.sub(r'\s+', ' ', st).replace('[ ', '[').replace('( ', '(').replace(', )', ')')
            st = st.replace(', ]', ']').replace(' .', '.')
            if re.match(r'let (mut )?(mc|context|local)\b', st): continue
            m = re.fullmatch(r'let (\w+) = include_str!\("\.\./\.\./test/(.*)"\)', st)
            if m: strs[m[1]] = lean_str(open(TEST + m[2], newline='').read()); continue
            m = re.fullmatch(r'let (\w+_path) = ("[^"]*")', st)
            if m: paths[m[1]] = m[2]; continue
            if st == 'let io: VirtualIo = VirtualIo::new(&[])': files = []; continue
            m = re.fullmatch(r'io\.write\((\w+), (\w+)\.as_bytes\(\)\)\.unwrap\(\)', st)
            if m: files.append((paths[m[1]], strs[m[2]])); continue
            m = re.fullmatch(r'let tokens = tokenize\((?:GLOBAL|manager), json_str\.to_owned\(\)\)', st)
            if m: env['tokens'] = f'ofText {strs["json_str"]}'; continue
            m = re.fullmatch(r'let tokens = \[(.*)\]', st)
            if m: env['tokens'] = 'ofTokens [' + ', '.join(token(x.replace('manager', 'GLOBAL')) for x in split_top(m[1])) + ']'; continue
            if re.fullmatch(r'let result = parse_with_virtual_io\((GLOBAL|manager), tokens\.into_iter\(\)\)', st):
                env['result'] = ('out', env['tokens']); continue
            if st == 'let result = parse(&mut context)':
                env['result'] = ('out', 'ofFile [' + ', '.join(f'({p}, {s})' for p, s in files) + f'] {paths["main_path"]}'); continue
            def val(e):
                """the meaning of an expression: a kind and a Lean term"""
                e = re.sub(r'::<[^()]*>(?=\()', '', e)
                if e in env: return env[e]
                m = re.fullmatch(r'(.*)\.unwrap\(\)', e)
                if m: return val(m[1])
                m = re.fullmatch(r'(.*)\.any', e)
                if m: return ('val', f'(Out.any ({val(m[1])[1]}))')
                m = re.fullmatch(r'(.*)\.(try_move|clone|items)\(\)', e)
                if m: return val(m[1])
                m = re.fullmatch(r'(.*)\[(\d)\]', e)
                if m: return ('val', f'(item {m[2]} {val(m[1])[1]})')
                raise Exception(e)
            m = re.fullmatch(r'let \((\w+), (\w+)\) = items\[(\d)\]\.clone\(\)', st)
            if m:
                o = env['items'][1]
                env[m[1]], env[m[2]] = ('key', f'key {m[3]} {o}'), ('val', f'(value {m[3]} {o})'); continue
            m = re.fullmatch(r'let (\w+) = (.*)', st)
            if m: env[m[1]] = val(m[2]); continue
            m = re.fullmatch(r'assert!\((\w+)\.is_(ok|err)\(\)\)', st)
            if m:
                k, t = env[m[1]]
                if k == 'out': conj.append(f'Out.is{m[2].capitalize()} ({t}) = true')
                else: conj.append(f'({t}).isSome = true')
                continue
            m = re.fullmatch(r'assert_eq!\(result\.unwrap_err\(\), ParseError::(\w+)\)', st)
            if m: conj.append(f'Out.err ({env["result"][1]}) = some {low(m[1])}'); continue
            m = re.fullmatch(r'assert_eq!\(result\.unwrap\(\)\.data_type, DataType::(\w+)\)', st)
            if m: conj.append(f'Out.dataType ({env["result"][1]}) = some {low(m[1])}'); continue
            m = re.fullmatch(r'assert_eq!\((.*)\.get_type\(\), Type::Null\)', st)
            if m: conj.append(f'isNull {val(m[1])[1]} = true'); continue
            m = re.fullmatch(r'assert_eq!\((.*)\.try_move\(\), Ok\((.*)\)\)', st)
            if m:
                v = val(m[1])[1]
                conj.append(f'asBool {v} = some {m[2]}' if m[2] in ('true', 'false') else f'asNum {v} = some {f64bits(m[2])}'); continue
            m = re.fullmatch(r'assert!\((\w+)\.is_empty\(\)\)', st)
            if m: conj.append(f'noItems {val(m[1])[1]} = true'); continue
            m = re.fullmatch(r'assert_eq!\((\w+), \[(.*)\]\)', st)
            if m:
                k, t = val(m[1])
                if k == 'key': conj.append(f'{t} = some [{m[2]}]')
                elif 'bigInt' in t: conj.append(f'(asBig {t}).map JsBig.items = some [{m[2]}]')
                else: conj.append(f'asStr {t} = some [{m[2]}]')
                continue
            m = re.fullmatch(r'assert_eq!\(result\.header_len\(\), (-?\d+)\)', st)
            if m:
                n = int(m[1])
                conj.append(f'(asBig {env["result"][1]}).map (fun b => (b.sign, b.items.length)) = some ({".neg" if n < 0 else ".pos"}, {abs(n)})'); continue
            if st == 'assert_eq!(local.size(), 0)': continue  # about another manager than the one used
            raise Exception(st)
        items.append((f'`{tname}`, parser.rs:{line}', conj, 'decide +kernel'))
    write('Parser', ['Verif.Model.Parser'], '# The unit tests of `parser/parser.rs`', items, PARSER_PRE)

if __name__ == '__main__':
    for f in (sys.argv[1:] or ['jsbigint', 'biguint', 'bigint', 'bigfloat', 'tokenizer', 'path', 'rangemap', 'parser']):
        globals()[f]()
