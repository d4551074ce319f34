"""Regenerate the table of DESIGN.md between the markers from plan.txt and claims.txt."""
import os
here = os.path.dirname(os.path.abspath(__file__))
def rows(name, n):
    for l in open(os.path.join(here, name)):
        if l.strip():
            p = [x.strip() for x in l.rstrip('\n').split('|')]
            yield p + [''] * (n - len(p))
claims = {r[0]: r for r in rows('claims.txt', 4)}
plan = {r[0]: r for r in rows('plan.txt', 3)}
missing = set(claims) ^ set(plan)
assert not missing, missing
out = ['| id | modelled in | proof | status | limits |', '|----|----|----|----|----|']
for k in sorted(plan):
    out.append('| %s | %s | %s | %s | %s |' % (k, plan[k][1], plan[k][2], claims[k][1], claims[k][3]))
path = os.path.join(here, '..', 'DESIGN.md')
s = open(path).read()
a, rest = s.split('<!-- table -->\n')
_, b = rest.split('<!-- end table -->')
open(path, 'w').write(a + '<!-- table -->\n' + '\n'.join(out) + '\n<!-- end table -->' + b)
