"""Compare the definitions that model CPython's library with CPython itself, on random inputs.

usage, from /verif after `lake build` in lean: python3 tools/compare_library.py DIR
Writes Lean files with the answers of CPython into DIR, runs them, and prints the inputs on which the model answers differently.
Only the standard library is run, nothing of licant.
"""
import os, subprocess, sys
OUT = os.path.abspath(sys.argv[1])
LEAN = os.path.join(os.path.dirname(os.path.dirname(os.path.abspath(__file__))), "lean")
os.makedirs(OUT, exist_ok=True)

# --- paths: Py/Path.lean

import random, os.path as P
random.seed(7)
def ls(s): return '"'+s.replace('\\','\\\\').replace('"','\\"')+'"'
out=["import Verif.Py.Path","open Licant.Py.Path",
"def chk (n : String) (f : String → List Char) (l : List (String × String)) : IO Unit := do",
"  for (a,b) in l do",
"    if String.ofList (f a) ≠ b then IO.println s!\"{n} {repr a}: model {repr (String.ofList (f a))} python {repr b}\""]
ins=set()
while len(ins)<1200:
    ins.add(''.join(random.choice('//..ab.') for _ in range(random.randint(0,9))))
ins=sorted(ins)
def emit(n,leanf,pyf):
    out.append(f"#eval chk {ls(n)} (fun s => {leanf}) ["+", ".join(f"({ls(i)},{ls(pyf(i))})" for i in ins)+"]")
emit('normpath','normpath s.toList',P.normpath)
emit('dirname','dirname s.toList',P.dirname)
emit('basename','basename s.toList',P.basename)
emit('root','splitextRoot s.toList',lambda s:P.splitext(s)[0])
out.append("def chk2 (l : List (String × String × String)) : IO Unit := do\n  for (a,b,c) in l do\n    if String.ofList (join a.toList b.toList) ≠ c then IO.println s!\"join {repr a} {repr b}\"")
pairs=[(random.choice(ins),random.choice(ins)) for _ in range(1000)]
out.append("#eval chk2 ["+", ".join(f"({ls(a)},{ls(b)},{ls(P.join(a,b))})" for a,b in pairs)+"]")
open(OUT + '/DiffPath.lean','w').write("\n".join(out))

# --- command lines, patterns, relative paths, numbers, JSON, formats: Misc/Args, Misc/Glob, Misc/Headers, Misc/Jobs, Misc/Json, Cxx/Command

import random, os, sys, io, json, fnmatch, posixpath, contextlib
from argparse import ArgumentParser
random.seed(11)
def ls(s):
    r='"'
    for c in s:
        o=ord(c)
        if c in '"\\': r+='\\'+c
        elif o<32 or o==127: r+='\\x%02x'%o
        else: r+=c
    return r+'"'
def mk():
    p=ArgumentParser(prog='x')
    p.add_argument("-d","--debug",action="store_true",default=False)
    p.add_argument("-t","--trace",action="store_true",default=False)
    p.add_argument("-j","--threads",default='j')
    p.add_argument("-q","--quite",action="store_true",default=False)
    p.add_argument("freeargs",type=str,nargs="*")
    p.add_argument("--printruntime",action="store_true",default=False)
    p.add_argument("--clang_toolchain",action="store_true",default=False)
    p.add_argument("--gcc_toolchain",action="store_true",default=False)
    return p
P=mk()
def parse(l):
    try:
        with contextlib.redirect_stdout(io.StringIO()),contextlib.redirect_stderr(io.StringIO()):
            o=P.parse_args(l)
    except SystemExit as e: return 'help' if e.code==0 else 'usage'
    except Exception as e: return 'usage'
    fl=''.join(c for c,f in zip('dtqpcg',[o.debug,o.trace,o.quite,o.printruntime,o.clang_toolchain,o.gcc_toolchain]) if f)
    return fl+'|'+o.threads+'|'+'|'.join(o.freeargs)
tok=['-d','-t','-q','-j','-j4','-qd','-dqt','-tj4','-tj','-h','-qh','--debug','--tr','--thr','--threads','--threads=3','--t','--th','--debug=1','--debug=','-d=1','-j=2','-jq','--','-','-1','-1.5','-.5','-x','-x y','--foo','--foo=bar','--foo bar','a','b','make','','4','--printruntime','--pr','--clang','--c','--gcc_toolchain','--g','--q','-q-','-d-','-dx','--debug=a b','-j 4','-hj','--h','--help=1','-tj=4','-d=q','-dq=1','-tj=','-d=h','-qj=a=b','-d=-','-hx','-hd','-dhx','-d--','-q=','-dq=','--j','--j=1']
L=["import Verif.Misc.Args","import Verif.Misc.Glob","import Verif.Misc.Headers","import Verif.Misc.Jobs","import Verif.Misc.Json","import Verif.Cxx.Command","open Licant.Misc Licant.Misc.Headers Licant.Py.Path"]
L.append('''def vw (l : List String) : String :=
  match Args.parseArgs (l.map String.toList) with
  | .error .help => "help"
  | .error .usage => "usage"
  | .ok r => String.ofList ((['d','t','q','p','c','g'].zip [Args.Flag.debug, .trace, .quite, .printruntime, .clang, .gcc]).filterMap fun x => if r.flags x.2 then some x.1 else none) ++ "|" ++ String.ofList r.threads ++ "|" ++ "|".intercalate (r.free.map String.ofList)''')
L.append('def ca (x : List (List String × String)) : IO Unit := do\n  for (a,b) in x do\n    if vw a ≠ b then IO.println s!"args {repr a}: model {vw a} python {b}"')
cases=[[t] for t in tok]+[[a,b] for a in tok for b in tok]+[[random.choice(tok) for _ in range(random.randint(3,5))] for _ in range(3000)]
for i in range(0,len(cases),400):
    L.append("#eval ca ["+", ".join(f"([{', '.join(map(ls,c))}],{ls(parse(c))})" for c in cases[i:i+400])+"]")
# fnmatch
L.append('def cf (x : List (String × String × Bool)) : IO Unit := do\n  for (p,s,b) in x do\n    if Glob.fnmatch p.toList s.toList ≠ b then IO.println s!"fnmatch {repr p} {repr s}: python {b}"')
fs=[]
for _ in range(4000):
    p=''.join(random.choice('ab*?[]!-c.') for _ in range(random.randint(0,7))); s=''.join(random.choice('abc-!].[') for _ in range(random.randint(0,4)))
    fs.append((p,s,fnmatch.fnmatch(s,p)))
for i in range(0,len(fs),500):
    L.append("#eval cf ["+", ".join(f"({ls(p)},{ls(s)},{'true' if b else 'false'})" for p,s,b in fs[i:i+500])+"]")
# relpath
os.chdir('/tmp')
L.append('def cr (x : List (String × String × String)) : IO Unit := do\n  for (p,s,b) in x do\n    if String.ofList (relpath "/tmp".toList p.toList s.toList) ≠ b then IO.println s!"relpath {repr p} {repr s}: model {String.ofList (relpath "/tmp".toList p.toList s.toList)} python {b}"')
rs=[]
while len(rs)<1000:
    p=''.join(random.choice('//..ab') for _ in range(random.randint(1,8))); s=''.join(random.choice('//..ab') for _ in range(random.randint(1,6)))
    rs.append((p,s,posixpath.relpath(p,s)))
L.append("#eval cr ["+", ".join(f"({ls(p)},{ls(s)},{ls(b)})" for p,s,b in rs)+"]")
# int
def pi(s):
    try: return f"(some ({int(s)}))"
    except ValueError: return "none"
L.append('def ci (x : List (String × Option Int)) : IO Unit := do\n  for (p,b) in x do\n    if pyInt p.toList ≠ b then IO.println s!"int {repr p}: python {repr b}"')
iz=[''.join(random.choice('0123-+_ \t\n\x1c\x0bj') for _ in range(random.randint(0,5))) for _ in range(2500)]
L.append("#eval ci ["+", ".join(f"({ls(s)},{pi(s)})" for s in iz)+"]")
# json
def jl(s):
    try: d=json.loads(s)
    except Exception: return None
    if not isinstance(d,dict) or any(not isinstance(v,str) for v in d.values()): return None
    return d
L.append('def cj (x : List (String × Option (List (String × String)))) : IO Unit := do\n  for (p,b) in x do\n    if (Json.loads p.toList).map (fun d => d.map fun y => (String.ofList y.1, String.ofList y.2)) ≠ b then IO.println s!"json {repr p}: python {repr b}"')
js=[]
frag=['{','}','"a"','"b"',':',',',' ','\n','"\\u0041"','"\\n"','"\\ud83d\\ude00"','"x\ny"','"\\q"','"é"','""','"\\/"','"\\u00e9"','"\\u12"']
for _ in range(4000):
    if random.random()<.5:
        s='{'+random.choice(['',' '])+random.choice([', ',',',' , ']).join(random.choice(frag[2:4]+frag[8:])+random.choice([':',': ',' : '])+random.choice(frag[2:4]+frag[8:]) for _ in range(random.randint(0,3)))+'}'+random.choice(['','\n','x'])
    else: s=''.join(random.choice(frag) for _ in range(random.randint(0,7)))
    js.append(s)
for i in range(0,len(js),500):
    L.append("#eval cj ["+", ".join(f"({ls(s)},"+("none" if jl(s) is None else "some ["+", ".join(f"({ls(k)},{ls(v)})" for k,v in jl(s).items())+"]")+")" for s in js[i:i+500])+"]")
# dumps
L.append('def cd (x : List (List (String × String) × String)) : IO Unit := do\n  for (p,b) in x do\n    if String.ofList (Json.dumps (p.map fun y => (y.1.toList, y.2.toList))) ≠ b then IO.println s!"dumps {repr p}: python {repr b}"')
ds=[]
for _ in range(600):
    d={''.join(random.choice('a"\\\n\t\x7f\x01é😀/') for _ in range(random.randint(0,4))):''.join(random.choice('a"\\\n\r\t\x7f\x01é😀/\x0c\x08') for _ in range(random.randint(0,4))) for _ in range(random.randint(0,3))}
    ds.append(d)
L.append("#eval cd ["+", ".join("(["+", ".join(f"({ls(k)},{ls(v)})" for k,v in d.items())+f"],{ls(json.dumps(d))})" for d in ds)+"]")
# format
def pf(x):
    try: return 'some '+ls(x.format(a='1',b='2b'))
    except Exception: return 'none'
L.append('def lk (k : List Char) : Option (List Char) := if k = [\'a\'] then some [\'1\'] else if k = [\'b\'] then some [\'2\', \'b\'] else none')
L.append('def cfm (x : List (String × Option String)) : IO Unit := do\n  for (p,b) in x do\n    let r := match Licant.Cxx.fmt lk none p.toList with | .ok s => some (String.ofList s) | .error _ => none\n    if r ≠ b then IO.println s!"format {repr p}: python {repr b}"')
fm=[''.join(random.choice('{}{}ab. ') for _ in range(random.randint(0,8))) for _ in range(2500)]
L.append("#eval cfm ["+", ".join(f"({ls(s)},{pf(s)})" for s in fm)+"]")
open(OUT + '/DiffRest.lean','w').write("\n".join(L))

for f in ("DiffPath", "DiffRest"):
    r = subprocess.run(["lake", "env", "lean", OUT + "/" + f + ".lean"], cwd=LEAN, capture_output=True, text=True)
    print(f, "differences:", r.stdout.count("\n"))
    print(r.stdout, r.stderr)

# --- resolution of paths: Make/Tree.lean, `Walk` against os.path.exists and `Real` against os.path.realpath

import os,random,shutil
random.seed(5)
B=os.path.realpath(OUT)+'/tt'
def comps(p): return p.split('/')
def start(d,p): return [] if p.startswith('/') else d
bad=0; n=0
for it in range(150):
    shutil.rmtree(B,ignore_errors=True); os.makedirs(B+'/c'); 
    T={}
    pre=B[1:].split('/')
    for i in range(len(pre)+1): T[tuple(pre[:i])]='dir'
    T[tuple(pre+['c'])]='dir'
    dirs=[pre,pre+['c']]
    for _ in range(random.randint(2,8)):
        d=random.choice(dirs); c=random.choice('abe'); q=d+[c]
        if tuple(q) in T: continue
        k=random.choice(['file','dir','link','link'])
        P='/'+'/'.join(q)
        if k=='file': open(P,'w').close(); T[tuple(q)]='file'
        elif k=='dir': os.mkdir(P); T[tuple(q)]='dir'; dirs.append(q)
        else:
            t='/'.join(random.choice(['a','b','c','e','..','.','']) for _ in range(random.randint(1,3)))
            if random.random()<.3: t=B+'/'+t
            if t=='' : t='a'
            os.symlink(t,P); T[tuple(q)]=('link',t)
    def walk(f,d,r):
        if f==0: raise RecursionError
        if not r: return d
        c=r[0]
        if c in('','.'): return walk(f-1,d,r[1:]) if T.get(tuple(d))=='dir' else None
        if c=='..': return walk(f-1,d[:-1],r[1:]) if T.get(tuple(d))=='dir' else None
        x=T.get(tuple(d+[c]))
        if x is None: return None
        if isinstance(x,tuple):
            m=walk(f-1,start(d,x[1]),comps(x[1])); return None if m is None else walk(f-1,m,r[1:])
        return walk(f-1,d+[c],r[1:])
    def real(f,d,r):
        if f==0: raise RecursionError
        if not r: return d
        c=r[0]
        if c in('','.'): return real(f-1,d,r[1:])
        if c=='..': return real(f-1,d[:-1],r[1:])
        x=T.get(tuple(d+[c]))
        if isinstance(x,tuple): return real(f-1,real(f-1,start(d,x[1]),comps(x[1])),r[1:])
        return real(f-1,d+[c],r[1:])
    cwd=random.choice(dirs); os.chdir('/'+'/'.join(cwd))
    for _ in range(60):
        p='/'.join(random.choice(['a','b','c','e','..','.','']) for _ in range(random.randint(1,5)))
        if random.random()<.3: p=B+'/'+p
        n+=1
        if p and not (p.startswith('/') and not p.startswith(B)):
            try:
                w=walk(60,start(cwd,p),comps(p))
                if (w is not None)!=os.path.exists(p): bad+=1; print('exists',p,cwd,T)
            except RecursionError: pass
            try:
                q='/'+'/'.join(real(60,start(cwd,p),comps(p)))
                if q!=os.path.realpath(p): bad+=1; print('real',p,q,os.path.realpath(p),cwd,T)
            except RecursionError: pass
print('paths resolved:', n, 'differences:', bad)
