# Fills section 7 of DESIGN.md: the theorems of MANIFEST.json by the axioms they depend on.
import subprocess, re
p = '/verif/DESIGN.md'
s = open(p).read()
ax = subprocess.run(['python3', '/verif/tools/axioms.py'], capture_output=True, text=True, check=True).stdout.strip()
a = s.index('## 7. Axioms per theorem'); b = s.index('## 8.')
s = s[:a] + '''## 7. Axioms per theorem

Output of `tools/axioms.py` (`#print axioms` for every theorem of MANIFEST.json):

''' + ax + '\n\n' + s[b:]
open(p, 'w').write(s)
