"""Lists the functions of /repo that no comment of the model cites (file:lines)."""
import re,os,glob
cit={}
for f in glob.glob('/verif/lean/Verif/**/*.lean',recursive=True):
    s=open(f).read()
    for m in re.finditer(r'([A-Za-z0-9_/]+\.go):(\d[\d,\- ]*)',s):
        b=m.group(1)
        for part in re.findall(r'(\d+)(?:-(\d+))?',m.group(2)):
            a=int(part[0]); z=int(part[1] or a)
            cit.setdefault(b.split('/')[-1],[]).append((b,a,z))
for root,_,fs in os.walk('/repo'):
    for g in sorted(fs):
        if not g.endswith('.go') or g.endswith('_test.go'): continue
        p=os.path.join(root,g)
        if '/tests/' in p or 'e2etests' in p: continue
        lines=open(p).read().split('\n')
        i=0; un=[]
        while i<len(lines):
            if lines[i].startswith('func '):
                j=i
                while j<len(lines) and lines[j]!='}' : j+=1
                if lines[i].rstrip().endswith('}'): j=i
                ok=False
                for b,a,z in cit.get(g,[]):
                    if (p.endswith(b) or b==g) and a<=j+1 and z>=i+1: ok=True
                if not ok: un.append((i+1,lines[i]))
                i=j
            i+=1
        for l,t in un: print(p[6:],l,t)
