"""Write /verif/MANIFEST.json: theorem names are read off lean/Verif/Props, status and notes are
given in tools/status.json."""
import glob, json, os, re

root = os.path.dirname(os.path.dirname(os.path.abspath(__file__)))
status = json.load(open(os.path.join(root, 'tools', 'status.json')))
names = {}
for path in sorted(glob.glob(os.path.join(root, 'lean/Verif/Props/*.lean'))):
    for line in open(path):
        m = re.match(r'theorem ((C\d+)_\w+)', line)
        if m:
            names.setdefault(m.group(2), []).append('Jschon.' + m.group(1))
claims = []
for line in open(os.path.join(root, 'properties.jsonl')):
    pid = json.loads(line)['id']
    if pid in status and pid in names:
        claims.append({'property': pid, 'status': status[pid]['status'],
                       'theorems': names[pid], 'note': status[pid]['note']})
json.dump({'claims': claims}, open(os.path.join(root, 'MANIFEST.json'), 'w'), indent=1)
print(len(claims), 'claims', sum(len(c['theorems']) for c in claims), 'theorems;',
      'missing:', sorted(set(names) ^ set(status)))
