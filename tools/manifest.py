"""Write MANIFEST.json from the table below and check that every theorem name occurs in the sources."""
import json, os, re
ROOT = os.path.dirname(os.path.dirname(os.path.abspath(__file__)))
CLAIMS = json.load(open(os.path.join(ROOT, 'tools', 'claims.json')))
src = ''
for d, _, fs in os.walk(os.path.join(ROOT, 'lean', 'Verif')):
    for f in fs:
        if f.endswith('.lean'):
            src += open(os.path.join(d, f)).read() + '\n'
ids = [json.loads(l)['id'] for l in open(os.path.join(ROOT, 'properties.jsonl')) if l.strip()]
out = []
for k in ids:
    if k not in CLAIMS:
        print('no claim for', k); continue
    c = CLAIMS[k]
    names = []
    for t in c['theorems']:
        base = t.split('.')[-1]
        if not re.search(r'theorem\s+(\S*\.)?' + re.escape(base) + r'\b', src):
            print('MISSING', k, t)
        names.append(t)
    out.append({'property': k, 'status': c['status'], 'theorems': names, 'note': c['note']})
for k in CLAIMS:
    if k not in ids: print('unknown property', k)
json.dump({'claims': out}, open(os.path.join(ROOT, 'MANIFEST.json'), 'w'), indent=1, ensure_ascii=False)
print(len(out), 'claims')
