# every citation file.rs:a-b must name an existing file and lines; a backticked name just before it must be
# declared (fn/struct/enum/const/trait/impl/variant) inside or around the cited lines
import re,glob,os,sys
files={}
for p in glob.glob('/repo/**/*.rs',recursive=True): files.setdefault(os.path.basename(p),[]).append(p)
src={p:open(p).read().split('\n') for ps in files.values() for p in ps}
def span(lines,i):
    # end of the item starting at line i (0-based) by brace matching
    d=0;seen=False
    for j in range(i,len(lines)):
        d+=lines[j].count('{')-lines[j].count('}')
        if '{' in lines[j]: seen=True
        if seen and d<=0: return j
        if not seen and lines[j].rstrip().endswith(';'): return j
    return len(lines)-1
bad=tot=named=0
for f in sorted(glob.glob('Verif/**/*.lean',recursive=True)):
    t=open(f).read()
    for m in re.finditer(r'((?:[\w\-]+/)*[\w\-]+\.rs):(\d+(?:-\d+)?(?:,\s*\d+(?:-\d+)?)*)',t):
        tot+=1
        path,rs=m.groups()
        c=[p for p in files.get(os.path.basename(path),[]) if p.endswith('/'+path)]
        ln=t.count('\n',0,m.start())+1
        R=[tuple(int(x) for x in (r.strip().split('-')*2)[:2]) for r in rs.split(',')]
        if not c: print(f'{f}:{ln} NOFILE {m.group(0)}'); bad+=1; continue
        c=[p for p in c if all(b<=len(src[p]) for a,b in R)]
        if not c: print(f'{f}:{ln} RANGE {m.group(0)}'); bad+=1; continue
        before=t[max(0,m.start()-120):m.start()]
        nm=re.search(r'`([^`]+)`[^`]{0,40}$',before)
        if not nm: continue
        name=re.split(r'[:.(<! ]+',nm.group(1).split('(')[0].strip())
        name=[x for x in name if x]
        if not name: continue
        name=name[-1]
        defs=[]
        for p in c:
            for i,l in enumerate(src[p]):
                if re.search(r'\b(fn|struct|enum|const|trait|type|static|macro_rules!)\s+'+re.escape(name)+r'\b',l): defs.append((p,i+1,span(src[p],i)+1))
        if not defs: continue
        named+=1
        if not any(any(a<=e and b>=s for a,b in R) for _,s,e in defs):
            bad+=1; print(f'{f}:{ln} `{name}` cited {rs} actual {[(s,e) for _,s,e in defs]}')
        else:
            # off: cited range's start not near def start and not contained
            if not any(any((a>=s-6 and b<=e+3) or (a<=s and b>=e) for a,b in R) for _,s,e in defs):
                print(f'{f}:{ln} LOOSE `{name}` cited {rs} actual {[(s,e) for _,s,e in defs]}')
print('total',tot,'named',named,'bad',bad)
