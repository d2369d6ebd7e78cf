#!/usr/bin/env python3
"""For every citation `Name` : `/repo/file:a-b` in a comment of the model: the file has these lines and the text of the lines mentions Name."""
import re,glob,os
bad=0;n=0
funcs={}
def gofuncs(path):
    if path in funcs: return funcs[path]
    r=[];src=open(path,errors="replace").read().split("\n")
    for i,l in enumerate(src,1):
        m=re.match(r'func (?:\([^)]*\) )?(\w+)',l)
        if m:
            e=i
            while e<=len(src) and src[e-1]!="}" and not (e==i and l.rstrip().endswith("}")): e+=1
            r.append((m.group(1),i,e))
    funcs[path]=r
    return r
for f in sorted(glob.glob("/verif/lean/Verif/**/*.lean",recursive=True)):
    s=open(f).read()
    for c in re.finditer(r'/--(.*?)-/|/-!(.*?)-/',s,re.S):
        t=c.group(0)
        for m in re.finditer(r'`/repo/([\w./-]+\.\w+):([\d,\- ]+)`',t):
            n+=1
            path="/repo/"+m.group(1)
            ln=s.count("\n",0,c.start()+m.start())+1
            where=f"{f[len('/verif/lean/'):]}:{ln}"
            if not os.path.exists(path): print("NOFILE",where,path); bad+=1; continue
            src=open(path,errors="replace").read().split("\n")
            ranges=[]
            for part in m.group(2).replace(" ","").split(","):
                if not part: continue
                a,_,b=part.partition("-"); ranges.append((int(a),int(b or a)))
            if any(b>len(src) or a>b for a,b in ranges): print("RANGE",where,m.group(0)); bad+=1; continue
            before=t[:m.start()]
            k=re.search(r'`([^`]+)`[^`]{0,40}$',before)
            text="\n".join("\n".join(src[a-1:b]) for a,b in ranges)
            if k:
                w=re.findall(r'[A-Za-z_]\w*',k.group(1))
                inside=path.endswith(".go") and any(nm in w and all(x<=a and b<=y for a,b in ranges) for nm,x,y in gofuncs(path))
                if w and not k.group(1).startswith("/repo") and not inside and not any(x in text for x in w if len(x)>2): print("NAME",where,k.group(1),m.group(0)); bad+=1
            else:
                pass
            # a multi-line range that starts close to, but not at, the start of a function
            if len(ranges)==1 and k and "disk_gen" not in path:
                a,b=ranges[0]
                w=re.findall(r'[A-Za-z_]\w*',k.group(1))
                for nm,x,y in gofuncs(path) if path.endswith(".go") else []:
                    if w and w[-1]==nm and len(ranges)==1 and b-a>2:
                        if not (x<=a and b<=y) and not(a<=x and y<=b): print("SPAN",where,nm,(a,b),"func is",(x,y)); bad+=1
                        elif a!=x and (a<x): print("near",where,nm,(a,b),"func is",(x,y))
print(n,"citations",bad,"bad")
