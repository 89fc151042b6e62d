"""Seeded-bug testing.  usage: mutate.py mutations.json   (run outside /verif; copies /verif/lean to /tmp/mut)
Each mutation: {"definition","file","old","new","edit","claim","count"(optional occurrence, 0-based)}.
Prints for each mutation the declarations that no longer check and the modules that could not be built because of it, and
appends a line to /verif/seeded/LOG.jsonl."""
import json, os, re, subprocess, sys, shutil
SRC=os.environ.get("MUT_SRC","/verif/lean"); DST=os.environ.get("MUT_DST","/tmp/mut")
def sync():
    shutil.rmtree(DST,ignore_errors=True); subprocess.run(["cp","-a",SRC,DST],check=True)
def decl_at(path,line):
    L=open(path).read().split("\n"); i=line-1
    while i>=0:
        m=re.match(r"(?:@\[[^\]]*\]\s*)?(?:private |protected |noncomputable )*(theorem|lemma|def|instance|example|structure|inductive|abbrev)\b\s*([^\s:({\[]*)",L[i])
        if m: return (m.group(1)+" " if m.group(1)!="theorem" else "")+m.group(2)
        i-=1
    return "?"
def deps():
    d={}
    for root,_,fs in os.walk(DST+"/Verif"):
        for f in fs:
            if f.endswith(".lean"):
                p=os.path.join(root,f); mod=os.path.relpath(p,DST)[:-5].replace("/",".")
                d[mod]=[m for m in re.findall(r"^import (Verif\.\S+)",open(p).read(),re.M)]
    return d
def run(m, log=True):
    sync()
    p=os.path.join(DST,m["file"]); s=open(p).read()
    n=s.count(m["old"])
    if n==0: print("NOT FOUND",m["definition"],m["old"]); return
    k=m.get("count",0)
    if n>1 and "count" not in m: print("AMBIGUOUS",n,m["definition"],m["old"]); return
    i=-1
    for _ in range(k+1): i=s.index(m["old"],i+1)
    s=s[:i]+m["new"]+s[i+len(m["old"]):]
    open(p,"w").write(s)
    try:
        r=subprocess.run(["lake","build"],cwd=DST,capture_output=True,text=True,timeout=1500)
        out=r.stdout+r.stderr
    except subprocess.TimeoutExpired: out="error: TIMEOUT"
    failed=[]
    badmods=set()
    for f,l in re.findall(r"error: (Verif/\S+\.lean):(\d+):",out):
        dn=decl_at(os.path.join(DST,f),int(l))
        badmods.add(f[:-5].replace("/","."))
        if dn not in failed: failed.append(dn)
    d=deps(); blocked=set(); ch=True
    while ch:
        ch=False
        for k2,v in d.items():
            if k2 not in badmods and k2 not in blocked and any(x in badmods or x in blocked for x in v):
                blocked.add(k2); ch=True
    blockedprops=sorted(b for b in blocked if ".Props." in b)
    blockedthms=[]
    for b in blockedprops:
        blockedthms+=re.findall(r"^theorem (C\d\d_\S+)",open(os.path.join(DST,b.replace(".","/")+".lean")).read(),re.M)
    print(("KILLED " if failed else "SURVIVED ")+m["definition"],"|",m["edit"],"|",failed[:8],"| blocked",blockedprops, "" if failed else out[-300:])
    sys.stdout.flush()
    if log:
        with open("/verif/seeded/LOG.jsonl","a") as f:
            f.write(json.dumps({"definition":m["definition"],"file":m["file"],"edit":m["edit"]+" ["+m["old"]+" -> "+m["new"]+"]","claim":m["claim"],
              "theorems_failed":failed,"property_modules_that_no_longer_build":blockedprops,"theorems_tightened":m.get("tightened",[])},ensure_ascii=False)+"\n")
if __name__=="__main__":
    ms=json.load(open(sys.argv[1]))
    for m in ms: run(m, log=("--dry" not in sys.argv))
