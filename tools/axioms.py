# Prints, for every theorem of MANIFEST.json, the axioms it depends on (grouped), in Markdown.
# Needs a built project in /verif/lean.
import json, re, subprocess, collections
claims = json.load(open('/verif/MANIFEST.json'))['claims']
names = [t for c in claims for t in c['theorems']]
src = 'import Verif\n' + ''.join('#print axioms %s\n' % n for n in names)
out = subprocess.run(['lake', 'env', 'lean', '--stdin'], input=src, cwd='/verif/lean', capture_output=True, text=True).stdout
out = re.sub(r'\n\s+', ' ', out)
by = collections.OrderedDict()
seen = set()
for m in re.finditer(r"'(\S+)' (?:depends on axioms: \[([^\]]*)\]|does not depend on any axioms)", out):
    by.setdefault(', '.join(sorted((m.group(2) or 'none').split(', '))), []).append(m.group(1)[len('Estrade.'):])
    seen.add(m.group(1))
assert seen == set(names), set(names) - seen
for k in sorted(by):
    print('* **%s** (%d theorems): %s' % (k, len(by[k]), ', '.join('`%s`' % n for n in by[k])))
