"""Write AXIOMS.md: the axioms that each theorem of MANIFEST.json depends on (needs a finished build)."""
import json, os, re, subprocess, tempfile
root = os.path.join(os.path.dirname(os.path.abspath(__file__)), '..')
claims = json.load(open(os.path.join(root, 'MANIFEST.json')))['claims']
names = [t for c in claims for t in c['theorems']]
with tempfile.NamedTemporaryFile('w', suffix='.lean', delete=False) as f:
    f.write('import Verif\nset_option pp.width 100000\n' + ''.join(f'#print axioms {n}\n' for n in names))
out = subprocess.run(['lake', 'env', 'lean', f.name], cwd=os.path.join(root, 'lean'),
                     capture_output=True, text=True).stdout
deps = {}
for m in re.finditer(r"'([^']+)' (?:depends on axioms: \[([^\]]*)\]|does not depend on any axioms)", out):
    deps[m.group(1)] = ', '.join(sorted(x.strip() for x in (m.group(2) or '').split(',') if x.strip())) or 'none'
with open(os.path.join(root, 'AXIOMS.md'), 'w') as f:
    f.write('# Axioms per theorem\n\nWritten by `tools/axioms.py` from `#print axioms`.\n\n| Property | Theorem | Axioms |\n|---|---|---|\n')
    for c in claims:
        for t in c['theorems']:
            f.write(f"| {c['property']} | `{t}` | {deps[t]} |\n")
print(len(deps), 'of', len(names), sorted(set(deps.values())))
