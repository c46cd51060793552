"""Apply edits to the model in a scratch copy, rebuild, and report which theorems no longer check.
usage: mutate.py edits.json   (list of {file, old, new, edit, claim, define})
Results are appended to seeded/LOG.jsonl."""
import json, os, re, shutil, subprocess, sys
SRC = '/verif/lean'; DST = '/tmp/mut/lean'
os.makedirs('/tmp/mut', exist_ok=True)
subprocess.run(['rsync', '-a', '--delete', SRC + '/', DST + '/'], check=True) if shutil.which('rsync') else \
    subprocess.run('rm -rf /tmp/mut/lean && cp -r /verif/lean /tmp/mut/lean', shell=True, check=True)
def decl_at(path, line):
    ls = open(path).read().split('\n')
    for i in range(min(line, len(ls)) - 1, -1, -1):
        m = re.match(r'\s*(?:@\[.*?\]\s*)?(?:private |noncomputable )?(theorem|def|instance|example|lemma)\s*(\S*)', ls[i])
        if m: return m.group(2) if m.group(1) != 'example' else 'example'
    return '?'
edits = json.load(open(sys.argv[1]))
for e in edits:
    p = os.path.join(DST, e['file']); s = open(p).read()
    if s.count(e['old']) < 1:
        print('NOT FOUND', e['file'], e['old']); continue
    open(p, 'w').write(s.replace(e['old'], e['new'], 1))
    r = subprocess.run(['lake', 'build'], cwd=DST, capture_output=True, text=True)
    out = r.stdout + r.stderr
    fails = []
    for m in re.finditer(r'error: (Verif/\S+\.lean):(\d+):\d+', out):
        n = decl_at(os.path.join(DST, m.group(1)), int(m.group(2)))
        if n not in fails: fails.append(n)
    bad = re.findall(r'^- (Verif\.\S+)', out, re.M)
    # modules that depend on a failed module and therefore do not build
    dep = set(bad); changed = True
    imps = {}
    for d, _, fs in os.walk(os.path.join(DST, 'Verif')):
        for f in fs:
            q = os.path.join(d, f); mod = os.path.relpath(q, DST)[:-5].replace('/', '.')
            imps[mod] = re.findall(r'^import (Verif\.\S+)', open(q).read(), re.M)
    while changed:
        changed = False
        for m, im in imps.items():
            if m not in dep and any(i in dep for i in im): dep.add(m); changed = True
    props = sorted(m.split('.')[-1] for m in dep if '.Props.' in m)
    print('SURVIVED' if r.returncode == 0 else 'killed', '|', e['define'], '|', e['edit'], '|', fails[:6], '|', props)
    rec = {'definition': e['define'], 'edit': e['edit'], 'claim_broken': e['claim'],
           'theorems_failed': fails, 'property_files_not_built': props, 'theorems_tightened': e.get('tightened', [])}
    if r.returncode == 0: rec['survived'] = True
    open('/verif/seeded/LOG.jsonl', 'a').write(json.dumps(rec, ensure_ascii=False) + '\n')
    open(p, 'w').write(s)
