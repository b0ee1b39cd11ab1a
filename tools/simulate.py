#!/usr/bin/env python3
"""Run the project's own unit tests on the Lean model, instantiated with 64-bit floats.

This is a check of the model against the source, not a proof of anything. The Rust code cannot be built
here, but its unit tests (the `mod tests` of each file in /repo/src) contain inputs and expected results.
This script copies lean/Verif/Model to a scratch directory, wraps every array in a memo table (arrays of the
model are functions, which would be evaluated over and over again) and evaluates the tests with `lean`.
Nothing of this is part of the build.

    python3 tools/simulate.py [scratch directory]
"""
import os, re, subprocess, sys

HERE = os.path.dirname(os.path.abspath(__file__))
MODEL = os.path.join(HERE, '..', 'lean', 'Verif', 'Model')
ORDER = ['Basic', 'Triangular', 'Cholesky', 'Householder', 'Qr', 'Tridiagonal', 'Bidiagonal', 'Givens', 'Eigh',
         'Svd', 'Sort', 'Norm', 'Lobpcg', 'TruncatedEig', 'TruncatedSvd']


def wrap(text):
    """Wrap anonymous constructors of arrays, `⟨r, c, fun ..⟩` and `⟨n, fun ..⟩`, in `memo`."""
    out, i = [], 0
    while i < len(text):
        if text[i] != '⟨':
            out.append(text[i])
            i += 1
            continue
        depth, j, parts, last = 0, i, [], i + 1
        while True:
            ch = text[j]
            if ch in '⟨([{':
                depth += 1
            elif ch in '⟩)]}':
                depth -= 1
                if depth == 0:
                    break
            elif ch == ',' and depth == 1:
                parts.append(text[last:j])
                last = j + 1
            j += 1
        parts.append(text[last:j])
        inner = wrap(text[i + 1:j])
        tail = parts[-1].strip()
        if tail.startswith('fun') and len(parts) in (2, 3):
            # a `fun` swallows the commas that follow it, so it has to be the last component
            out.append('(Arr%d.memo ⟨%s⟩)' % (len(parts) - 1, inner))
        else:
            out.append('⟨' + inner + '⟩')
        i = j + 1
    return ''.join(out)


MEMO = '''
/-- The same array with its entries evaluated once. -/
@[noinline] def Arr1.memo {α : Type} (a : Arr1 α) : Arr1 α :=
  let d := Array.ofFn fun k : Fin a.len => a.get k
  ⟨a.len, fun i => match d[i]? with | some v => v | none => a.get i⟩

@[noinline] def Arr2.memo {α : Type} (a : Arr2 α) : Arr2 α :=
  let d := Array.ofFn fun k : Fin (a.nr * a.nc) => a.get (k.val / a.nc) (k.val % a.nc)
  ⟨a.nr, a.nc, fun i j => if j < a.nc then (match d[i * a.nc + j]? with | some v => v | none => a.get i j)
    else a.get i j⟩

'''


def main():
    work = sys.argv[1] if len(sys.argv) > 1 else '/tmp/simulate'
    os.makedirs(work, exist_ok=True)
    body = ['import Mathlib.Data.Rat.Defs\nset_option linter.all false\n']
    for name in ORDER:
        text = open(os.path.join(MODEL, name + '.lean')).read()
        text = re.sub(r'^import .*$', '', text, flags=re.M)
        text = re.sub(r'/-[-!](?:(?!-/).)*-/', '', text, flags=re.S)
        if name == 'Basic':
            head, rest = text.split('section access', 1)
            text = head + MEMO + 'section access' + wrap(rest)
        else:
            text = wrap(text)
        body.append(text)
    body.append(open(os.path.join(HERE, 'simulate_tests.txt')).read())
    path = os.path.join(work, 'Simulate.lean')
    open(path, 'w').write('\n'.join(body))
    r = subprocess.run(['lake', 'env', 'lean', '--run', path], cwd=os.path.join(HERE, '..', 'lean'))
    sys.exit(r.returncode)


if __name__ == '__main__':
    main()
