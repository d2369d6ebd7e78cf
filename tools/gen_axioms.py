# Writes /verif/AXIOMS.md: the axioms each theorem of the manifest depends on (needs a built /verif/lean).
import json,subprocess,collections
m=json.load(open('/verif/MANIFEST.json'))
names=[]
for c in m['claims']:
    for t in c['theorems']:
        if t not in names: names.append(t)
open('/tmp/ax.lean','w').write("import Verif\n"+"\n".join(f"#print axioms {n}" for n in names)+"\n")
o=subprocess.run(['lake','env','lean','/tmp/ax.lean'],cwd='/verif/lean',capture_output=True,text=True).stdout.replace('\n ',' ')
d=collections.OrderedDict()
for l in o.strip().split('\n'):
    n,_,r=l.partition("' ")
    n=n.strip("'")
    r='none' if 'does not' in r else r.split('[')[1].rstrip(']')
    d.setdefault(r,[]).append(n)
assert sum(map(len,d.values()))==len(names)
ok={'propext','Classical.choice','Quot.sound'}
out="# Axioms of the theorems named in MANIFEST.json\n\nGenerated by tools/gen_axioms.py from Lean's `#print axioms`.\n"
for r,ns in sorted(d.items(),key=lambda x:len(x[0])):
    assert r=='none' or set(x.strip() for x in r.split(','))<=ok,r
    out+=f"\n## {r} ({len(ns)})\n\n"+"\n".join("* `"+n+"`" for n in sorted(ns))+"\n"
open('/verif/AXIOMS.md','w').write(out)
