#!/usr/bin/env python3
"""Compares the texts copied into the model with the files of /repo. Exit status 1 if one differs."""
import re,sys,json
L="/verif/lean/Verif/"
R="/repo/"
def lits(s): return [json.loads('"'+m+'"') for m in re.findall(r'b!"((?:[^"\\]|\\.)*)"',s)]
def body(path,name):
    s=open(L+path).read()
    m=re.search(r'\ndef %s\b.*?(?=\n\n|\n/--)'%name,s,re.S)
    return m.group(0)
bad=0
def check(what,ok):
    global bad
    print(("ok   " if ok else "FAIL ")+what)
    if not ok: bad=1
g="Model/GenIgnore.lean"
lines=lits(body(g,"customLines")); rest=lits(body(g,"customRest"))[0]
check("customPatterns = custom_patterns.txt","".join(l+"\n" for l in lines)+rest==open(R+"custom_patterns.txt").read())
alts=lits(body(g,"ignoreAlts"))
pats="("+"|".join(alts)+")"
go=lits(body(g,"gitignoreGo"))
check("gitignoreGo = gitignore.go",go[0]+"`"+pats+"`"+go[-1]==open(R+"ripsrc/fileinfo/gitignore.go").read())
gi=open(R+"genignore.go").read()
head=lits(body(g,"genIgnore"))
check("template of genignore.go",head[-2].rstrip() [:-len("regexp.MustCompile(")] in gi and "var ignorePatterns = regexp.MustCompile(%s)\n" in gi)
def gostr(path,line):
    s=open(R+path).read().split("\n")[line-1]
    return json.loads('"'+re.search(r'MustCompile\("((?:[^"\\]|\\.)*)"\)',s).group(1)+'"')
for name,path,line in [("licensesExpr","ripsrc/fileinfo/license.go",11),("generatedExpr","ripsrc/code_info.go",201),("filenameMaskExpr","ripsrc/commitmeta/commitmeta.go",233),("tabExpr","ripsrc/commitmeta/commitmeta.go",292),("renameExpr","ripsrc/commitmeta/commitmeta.go",235)]:
    check("%s = %s:%d"%(name,path,line),lits(body("Props/RegexpUse.lean",name))[0]==gostr(path,line))
sys.exit(bad)
