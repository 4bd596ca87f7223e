#!/usr/bin/env python3
"""Write the axioms of all theorems of the manifest into DESIGN.md, between the two markers."""
import json, os, re, subprocess
root = os.path.join(os.path.dirname(os.path.abspath(__file__)), '..')
names = sorted({t for c in json.load(open(f'{root}/MANIFEST.json'))['claims'] for t in c['theorems']})
src = 'import Verif\n' + ''.join(f'#print axioms {n}\n' for n in names)
open('/tmp/axioms.lean', 'w').write(src)
out = subprocess.run(['lake', 'env', 'lean', '/tmp/axioms.lean'], cwd=f'{root}/lean', capture_output=True, text=True).stdout
out = re.sub(r'\n\s+', ' ', out)
by = {}
for n, a in re.findall(r"'([^']+)' depends on axioms: \[([^\]]*)\]", out):
    by.setdefault(', '.join(sorted(x.strip() for x in a.split(','))), []).append(n)
for n in re.findall(r"'([^']+)' does not depend on any axioms", out):
    by.setdefault('none', []).append(n)
found = sum(len(v) for v in by.values())
assert found == len(names), (found, len(names), out[-2000:])
short = lambda n: n.replace('PMondriaan.', '')
text = ''
for a in sorted(by, key=lambda a: -len(by[a])):
    text += f'* {a}: ' + ', '.join(f'`{short(n)}`' for n in sorted(by[a], key=short)) + '\n'
f = f'{root}/DESIGN.md'
s = open(f).read()
b, e = '<!-- axioms -->\n', '<!-- end of axioms -->'
i, j = s.index(b) + len(b), s.index(e)
open(f, 'w').write(s[:i] + text + s[j:])
print({a: len(v) for a, v in by.items()})
