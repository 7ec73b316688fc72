#!/usr/bin/env python3
"""Seed wrong programs: tools/mutate.py mutations.json [--log]
Each mutation: {"def","file","old","new","edit","claim"}.  Works in /tmp/mut, never in /verif.
Prints the theorems that fail; with --log appends to seeded/LOG.jsonl."""
import json,subprocess,sys,os,re,shutil
SRC='/verif/lean'; DST='/tmp/mut/lean'
def sync():
    subprocess.run('rm -rf /tmp/mut; mkdir -p /tmp/mut; cp -a %s /tmp/mut/lean'%SRC,shell=True,check=True)
def encl(f,line):
    L=open(os.path.join(DST,f)).read().split('\n')
    for i in range(min(line,len(L))-1,-1,-1):
        m=re.match(r'(?:private |protected |@\[.*?\] )*(theorem|def|example|instance|lemma|abbrev|structure|inductive)\s*(\S*)',L[i])
        if m: return m.group(2) if m.group(1)!='example' else 'example@%s:%d'%(os.path.basename(f),i+1)
    return '?'
def props_of(mods):
    """property files that (transitively) import one of mods"""
    imp={}
    for d,_,fs in os.walk(os.path.join(DST,'Verif')):
        for f in fs:
            if f.endswith('.lean'):
                p=os.path.relpath(os.path.join(d,f),DST)
                imp[p[:-5].replace('/','.')]=re.findall(r'^import (\S+)',open(os.path.join(d,f)).read(),re.M)
    bad=set(mods); ch=True
    while ch:
        ch=False
        for m,i in imp.items():
            if m not in bad and any(x in bad for x in i): bad.add(m); ch=True
    return sorted(m.split('.')[-1] for m in bad if '.Props.' in m)
def run(m):
    p=os.path.join(DST,m['file']); s=open(p).read()
    n=s.count(m['old'])
    if n<1: return None,'pattern not found'
    if n>1 and not m.get('all'): return None,'pattern found %d times'%n
    open(p,'w').write(s.replace(m['old'],m['new']))
    try:
        r=subprocess.run(['lake','build','Verif'],cwd=DST,capture_output=True,text=True,timeout=1500)
    finally:
        open(p,'w').write(s)
    out=r.stdout+r.stderr
    if r.returncode!=0 and not re.search(r'error: Verif/',out):
        dead=re.findall(r'^- (Verif\.\S+)',out,re.M)
        if not dead: return None,'build failed without a Lean error: '+out[-300:]
        return ['module '+d+' (Lean was killed)' for d in dead],props_of(dead)
    fails=[];mods=set()
    for f,l in re.findall(r'error: (Verif/[\w/]+\.lean):(\d+):',out):
        n=encl(f,int(l))
        if n not in fails: fails.append(n)
        mods.add(f[:-5].replace('/','.'))
    return fails,props_of(mods)
def main():
    ms=json.load(open(sys.argv[1])); log='--log' in sys.argv
    sync()
    for m in ms:
        fails,info=run(m)
        if fails is None: print('SKIP',m['def'],info); continue
        print(('SURVIVED ' if not fails else 'killed   ')+m['def']+' | '+m['edit']+' | '+', '.join(fails)+' | not built: '+' '.join(info),flush=True)
        if log:
            open('/verif/seeded/LOG.jsonl','a').write(json.dumps({"definition":m['def'],"edit":m['edit'],"claim":m['claim'],"failed":fails,"properties_not_provable":info,"tightened":m.get('tightened',[])})+'\n')
main()
