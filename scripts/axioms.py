"""Regenerates AXIOMS.md: `#print axioms` for every theorem of MANIFEST.json (needs a built project)."""
import json,subprocess,re,collections
m=json.load(open('/verif/MANIFEST.json'))
th=[t for c in m['claims'] for t in c['theorems']]
open('/tmp/ax.lean','w').write('import Verif\n'+''.join('#print axioms %s\n'%t for t in th))
out=subprocess.run(['lake','env','lean','/tmp/ax.lean'],cwd='/verif/lean',capture_output=True,text=True).stdout
out=re.sub(r'\n\s+',' ',out)
by=collections.OrderedDict()
for t in th:
    r=re.search(r"'%s' (?:depends on axioms: \[(.*?)\]|does not depend on any axioms)"%re.escape(t),out)
    assert r,t
    k=', '.join(sorted(r.group(1).replace('\n',' ').split(', '))) if r.group(1) else '(none)'
    by.setdefault(k,[]).append(t)
s='# Axioms of every theorem in MANIFEST.json\n\nOutput of `#print axioms`, grouped.\n'
for k,v in sorted(by.items(),key=lambda kv:len(kv[0])):
    s+='\n## %s  (%d)\n\n%s\n'%(k,len(v),', '.join('`%s`'%t for t in v))
open('/verif/AXIOMS.md','w').write(s)
print({k:len(v) for k,v in by.items()})
