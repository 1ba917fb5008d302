#!/usr/bin/env python3
"""Run the Lean model on the project's own snapshot suite.

/repo/crates/toml/tests/fixtures/invalid/**/*.stderr hold what the real program
printed for the 353 invalid documents of the toml-test suite. The documents are
not in the repository; inputs.json holds documents rebuilt from the lines the
snapshots show (plus the hidden control characters they name). This script runs
the model's `validate` on each of them and compares the output byte for byte.

This is a test of the reading of the Rust source, not a proof.
Usage: python3 tools/conform/fixtures.py   (after `lake build` in lean/)
"""
import json, os, subprocess, sys, tempfile
here = os.path.dirname(os.path.abspath(__file__))
lean = os.path.join(here, '..', '..', 'lean')
root = '/repo/crates/toml/tests/fixtures/'
RUN = '''import Verif.Cli.Model
open Verif Verif.Toml
-- the width of a text: here every character takes one column, except NUL which takes none
def width (s : List Char) : Nat := (s.filter fun c => c.toNat != 0).length
def render (t : String) : String :=
  match Cli.run width true id .validate t.toList with
  | some o => String.join (o.messages.map fun m => String.ofList m.dropLast)
  | none => "panic"
def main (args : List String) : IO Unit := do
  for d in args do
    for f in (← IO.FS.lines d) do
      IO.FS.writeFile (f ++ ".out") (render (← IO.FS.readFile f))
'''
cases = json.load(open(os.path.join(here, 'inputs.json')))
with tempfile.TemporaryDirectory() as d:
    paths = {}
    for i, (n, t) in enumerate(cases.items()):
        paths[n] = os.path.join(d, str(i))
        open(paths[n], 'w', newline='').write(t)
    open(os.path.join(d, 'list'), 'w').write('\n'.join(paths.values()) + '\n')
    open(os.path.join(d, 'Run.lean'), 'w').write(RUN)
    subprocess.run(['lake', 'env', 'lean', '--run', os.path.join(d, 'Run.lean'), os.path.join(d, 'list')],
                   cwd=lean, check=True)
    bad = [n for n, p in paths.items()
           if open(p + '.out', newline='').read() != open(root + n + '.stderr', newline='').read()]
print(len(cases) - len(bad), 'of', len(cases), 'snapshots reproduced byte for byte')
for n in bad: print('DIFFERS', n)
sys.exit(1 if bad else 0)
