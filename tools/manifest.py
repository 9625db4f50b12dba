"""Regenerates MANIFEST.json: collects the theorems named Cnn_* under lean/Verif/Props and adds the
status and notes below."""
import json, re, glob, os
root = os.path.join(os.path.dirname(os.path.abspath(__file__)), '..')
NOTES = json.load(open(os.path.join(root, 'tools', 'notes.json')))
thms = {}
for f in sorted(glob.glob(os.path.join(root, 'lean/Verif/Props/*.lean'))):
    for m in re.finditer(r'^theorem (C\d+_\w*)', open(f).read(), re.M):
        thms.setdefault(m.group(1).split('_')[0], []).append('DP.' + m.group(1))
claims = []
for l in open(os.path.join(root, 'properties.jsonl')):
    i = json.loads(l)['id']
    n = NOTES.get(i, {})
    st = n.get('status', 'proved' if i in thms else 'partial')
    claims.append({'property': i, 'status': st, 'theorems': thms.get(i, []),
                   'note': n.get('note', '' if i in thms else 'Not proved yet.')})
json.dump({'claims': claims}, open(os.path.join(root, 'MANIFEST.json'), 'w'), indent=1, ensure_ascii=False)
print({s: sum(c['status'] == s for c in claims) for s in ('proved', 'partial', 'not_applicable')})
