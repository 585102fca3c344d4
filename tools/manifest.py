"""Regenerate MANIFEST.json from the theorem names in lean/Verif/Props/*.lean (prefix Cnn_)."""
import glob, json, re, collections
notes = {}      # id -> note
partial = {}    # id -> what is missing (status partial)
na = {}         # id -> reason (not applicable)
try:
    exec(open('/verif/tools/notes.py').read())
except FileNotFoundError:
    pass
ths = collections.defaultdict(list)
for f in sorted(glob.glob('/verif/lean/Verif/Props/*.lean')):
    ns = 'Newt'
    for m in re.finditer(r'^namespace (\S+)|^theorem (C\d\d\d?)_(\w+)', open(f).read(), re.M):
        if m.group(1):
            ns = m.group(1)
        else:
            ths[m.group(2)].append('%s.%s_%s' % (ns, m.group(2), m.group(3)))
claims = []
for l in open('/verif/properties.jsonl'):
    i = json.loads(l)['id']
    if i in na:
        claims.append(dict(property=i, status='not_applicable', theorems=[], note=na[i]))
    elif ths[i]:
        st = 'partial' if i in partial else 'proved'
        claims.append(dict(property=i, status=st, theorems=ths[i], note=partial.get(i, notes.get(i, ''))))
    else:
        claims.append(dict(property=i, status='partial', theorems=[], note='not yet proved'))
json.dump({'claims': claims}, open('/verif/MANIFEST.json', 'w'), indent=1)
print(collections.Counter(c['status'] for c in claims))
