# Generates MANIFEST.json. One entry per property: (status, note, theorem names).
# Theorem names are collected from the Lean sources by prefix "Cnn_" (namespaces resolved), so that the
# manifest cannot go stale; status and notes are given here.
import json, os, re
here = os.path.dirname(os.path.abspath(__file__))
root = os.path.join(here, '..')
NOTES = json.load(open(os.path.join(here, 'status.json')))
thms = {}
for d, _, fs in os.walk(os.path.join(root, 'lean', 'Verif')):
    for f in sorted(fs):
        if not f.endswith('.lean'): continue
        ns = []
        for line in open(os.path.join(d, f)):
            m = re.match(r'namespace (\S+)', line)
            if m: ns.append(m.group(1)); continue
            m = re.match(r'end (\S+)', line)
            if m and ns and ns[-1] == m.group(1): ns.pop(); continue
            m = re.match(r'(?:protected |private )?theorem (C\d\d+)_(\S+)', line)
            if m:
                thms.setdefault(m.group(1), []).append('.'.join(ns + [m.group(1) + '_' + m.group(2)]))
claims = []
for l in open(os.path.join(root, 'properties.jsonl')):
    pid = json.loads(l)['id']
    if pid in NOTES:
        st, note = NOTES[pid]
        t = sorted(thms.get(pid, []))
        if st != 'not_applicable' and not t: print('NO THEOREMS for', pid)
        claims.append({"property": pid, "status": st, "theorems": t, "note": note})
    else:
        if pid in thms: print('theorems but no status:', pid)
json.dump({"claims": claims}, open(os.path.join(root, 'MANIFEST.json'), 'w'), indent=1)
print(len(claims), 'claims')
