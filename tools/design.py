"""Regenerates the results section of DESIGN.md from MANIFEST.json and properties.jsonl."""
import json, os
root = os.path.dirname(os.path.dirname(os.path.abspath(__file__)))
props = [json.loads(l) for l in open(root + '/properties.jsonl')]
claims = {c['property']: c for c in json.load(open(root + '/MANIFEST.json'))['claims']}
out = []
for p in props:
    c = claims[p['id']]
    names = [t.split('.')[-1] for t in c['theorems']]
    out.append('* **%s** %s (%s). %s Theorems: %s.' % (
        p['id'], p['title'], c['status'], c['note'], ', '.join('`%s`' % n for n in names)))
path = root + '/DESIGN.md'
s = open(path).read()
a, b = '<!-- results -->\n', '<!-- end results -->'
i, j = s.index(a) + len(a), s.index(b)
open(path, 'w').write(s[:i] + '\n'.join(out) + '\n' + s[j:])
