#!/usr/bin/env python3
"""Compares the listings of the model with the text of /repo, line by line.  Run from anywhere after `lake build`.

x86-64: the templates (templates.py), the Montgomery builder (montgomery.py) and the generated file benchmark/fr.asm of the
repository.  AArch64: the generator (arm.py).  The Python files are independent of the Lean model; templates.py and arm.py translate the
text of the templates and of armbuilder.js mechanically.  Nothing of the project is executed."""
import difflib,os,re,subprocess,sys,tempfile
here=os.path.dirname(os.path.abspath(__file__)); sys.path.insert(0,here)
import templates,montgomery,arm
LEAN=os.path.join(here,'..','..','lean')
RAW='copyn rawCopy rawSwap rawIsEq rawIsZero rawZero copy'.split()
def x86(n,bits,opt):
    f=[("Fr_copy","copy %d"),("Fr_rawCopy","rawCopy %d"),("Fr_rawSwap","rawSwap %d"),("Fr_copyn","copyn %d"),("rawCopyS2L","rawCopyS2L %d"),
       ("Fr_rawToMontgomery","rawToMontgomeryCode"),("Fr_toMontgomery","toMontgomery"),("Fr_toNormal","toNormal"),("Fr_toLongNormal","toLongNormal"),
       ("rawAddLL","rawAddLL %d"),("rawAddLS","rawAddLS %d"),("rawSubLL","rawSubLL %d"),("rawSubLS","rawSubLS %d"),("rawSubSL","rawSubSL %d"),
       ("rawNegLS","rawNegLS %d"),("rawNegL","rawNegL %d"),("Fr_rawIsEq","rawIsEq %d"),("Fr_rawIsZero","rawIsZero %d"),("Fr_rawZero","rawZero %d"),
       ("Fr_add","addCode %d"),("Fr_sub","subCode %d"),("Fr_neg","negCode"),("Fr_mul","mulCode"),("Fr_square","squareCode"),
       ("Fr_band","bandCode %d"),("Fr_bor","borCode %d"),("Fr_bxor","bxorCode %d"),("Fr_bnot","bnotCode %d"),
       ("Fr_rgt","rgtCode %d"),("Fr_rlt","rltCode %d"),("Fr_req","reqCode %d"),("Fr_land","landCode %d"),("Fr_lor","lorCode %d"),
       ("Fr_lnot","lnotCode %d"),("Fr_isTrue","isTrueCode %d"),("Fr_rawShr","rawShrCode {bits} %d"),("Fr_rawShl","rawShlCode {bits} %d"),
       ("Fr_shl","shlCode {bits} %d"),("Fr_shr","shrCode {bits} %d"),("Fr_toInt","toIntCode %d")]
    f=[(a,'some (%s)'%(b.format(bits=bits)%n if '%d' in b else b)) for a,b in f]
    o='true' if opt else 'false'
    f+=[("Fr_"+a,"template %d %s (%s %d %s)"%(n,o,u,n,o)) for a,u in (("rawMMul","upperMul"),("rawMSquare","upperSquare"),("rawMMul1","upperMul1"),("rawFromMontgomery","upperFrom"))]
    return f
HEAD="\n".join("import Verif."+m for m in "Show AsmRaw AsmBuilder AsmCopyn AsmMontMain AsmTagged AsmBit AsmCmp AsmLogic AsmShiftTag AsmToInt ArmGen".split())
def lean(body):
    with tempfile.NamedTemporaryFile('w',suffix='.lean',delete=False) as t: t.write(HEAD+'\n'+body)
    r=subprocess.run(['lake','env','lean',t.name],cwd=LEAN,capture_output=True,text=True); os.unlink(t.name)
    if 'error' in r.stdout: sys.exit(r.stdout[:2000])
    d={};c=None
    for l in r.stdout.split('\n'):
        if l.startswith('## '): c=l[3:]; d[c]=[]
        elif l: d[c].append(l)
    return d
def modelx86(configs):
    b="open FF.X86 FF.X86.Show\ndef out (k : String) (p : Option (List Line)) : IO Unit := do\n  IO.println s!\"## {k}\"\n  match p with | some p => (for l in p do IO.println (li l)) | none => IO.println \"NONE\"\n"
    for n,bits,opt in configs:
        b+="#eval do\n"+"".join('  out "%d%s %s" (%s)\n'%(n,'t' if opt else 'f',a,e) for a,e in x86(n,bits,opt))
    return lean(b)
def norm(l):
    l=re.sub(r'\s+',' ',l.split(';')[0].strip())
    if not l or l.endswith(':'): return l
    op,_,args=l.partition(' ')
    if op=='rep': return 'rep movsq'
    op={'je':'jz','jne':'jnz','jae':'jnc','jb':'jc'}.get(op,op)
    args=args.replace('qword ','').replace('QWORD ','')
    a=[re.sub(r'\+0\]',']',x.replace(' ','')) for x in args.split(',')] if args else []
    a=[str(int(x,16)) if re.match(r'^0x[0-9a-fA-F]+$',x) else x for x in a]
    return (op+' '+','.join(a)).strip()
def canon(ls):
    used={l.split(' ')[1] for l in ls if re.match(r'j\w+ ',l)}
    ls=[l for l in ls if not l.endswith(':') or l[:-1] in used]
    idx=[];k=0
    for l in ls:
        idx.append(k); k+=not l.endswith(':')
    out=[]
    for p,l in enumerate(ls):
        if l.endswith(':'): continue
        if re.match(r'j\w+ ',l):
            o,t=l.split(' '); tg=[idx[x] for x in range(p+1,len(ls)) if ls[x]==t+':']
            l='%s @%s'%(o,tg[0] if tg else 'EXT '+t)
        out.append(re.sub(r'call (Fr_)?','call ',l).replace(',$0',',0'))
    return out
def against(title,text,model,skip=()):
    asm=[x for x in map(norm,text) if x]; pos={l[:-1]:i for i,l in enumerate(asm) if l.endswith(':')}
    same=0;bad=[]
    for k,ml in model.items():
        if k in skip: continue
        if k not in pos: bad.append((k,['not in the text'])); continue
        cnt=sum(not l.endswith(':') for l in ml); seg=[];i=pos[k]+1;c=0
        while c<cnt and i<len(asm): seg.append(asm[i]); c+=not asm[i].endswith(':'); i+=1
        if k in ('Fr_rawShr','Fr_rawShl'):   # the model appends the two routines these jump to
            body=lambda r: asm[pos[r]:next(j for j in range(pos[r],len(asm)) if asm[j]=='ret')+1]
            tail=body('Fr_rawCopy')+body('Fr_rawZero'); c-=sum(not l.endswith(':') for l in tail)
            while sum(not l.endswith(':') for l in seg)>c: seg.pop()
            seg+=tail
        a,b=canon(seg),canon(ml)
        if a==b: same+=1
        else: bad.append((k,list(difflib.unified_diff(a,b,'repo','model',lineterm='',n=0))[2:]))
    print('%s: %d identical, %d different'%(title,same,len(bad)))
    for k,d in bad: print('   ',k,len(d)); [print('       ',x) for x in d[:6]]
cfg=[(n,64*n-2-n%2,True) for n in range(1,13)]+[(n,64*n,False) for n in range(1,13)]
M=modelx86(cfg+[(4,254,True)])
MONT=["Fr_rawMMul","Fr_rawMSquare","Fr_rawMMul1","Fr_rawFromMontgomery"]
for n,bits,opt in cfg:
    key='%d%s '%(n,'t' if opt else 'f'); m={k[len(key):]:v for k,v in M.items() if k.startswith(key)}
    t=templates.expand(n,bits).split('\n')
    against('templates, %d limbs, %d bits'%(n,bits),t,m,skip=MONT)
    mt=[l for _,p in montgomery.routines(n,opt) for l in p]
    against('Montgomery builder, %d limbs, %s'%(n,'optimised' if opt else 'general'),mt,{k:v for k,v in m.items() if k in MONT})
key='4t '; against('benchmark/fr.asm (older tagged templates)',open('/repo/benchmark/fr.asm').read().split('\n'),{k[3:]:v for k,v in M.items() if k.startswith(key) and k[3:] in MONT+['Fr_'+x for x in RAW]+['rawAddLL','rawAddLS','rawSubLL','rawSubLS','rawSubSL','rawNegLS','rawNegL','Fr_mul','Fr_square','Fr_neg']})
ARM='rawAdd n false|rawAdd n true|rawSub n .LL|rawSub n .SL|rawSub n .LS|rawSubRegular n|rawNeg n|rawNegLS n|rawMMul n opt|rawMul1 n true opt|rawMul1 n false opt|rawIsZero n|rawIsEq n|rawCmp n|rawCopy n|rawCopyS2L n|rawSwap n|rawBinOp n .and|rawBinOp n .orr|rawBinOp n .eor|rawBinOp n .mvn|rawShr n|rawShl n'.split('|')
b="open FF.Arm FF.Arm.Show\n#eval do\n  for n in (List.range 13).drop 1 do\n    for opt in [true, false] do\n      for (k, p) in (["+", ".join('(%d, %s)'%(i,e) for i,e in enumerate(ARM))+"] : List (Nat × List Line)) do\n        IO.println s!\"## {n} {opt} {k}\"\n        for s in p.flatMap li ++ p.flatMap tbl do IO.println s\n"
A=lean(b); same=0;tot=0
def anorm(l):
    l=re.sub(r'b\.cs','b.hs',l); l=re.sub(r',cs$',',hs',l).replace('0x3f','#63').replace('mov x2,-1','mov x2,#%d'%(2**64-1))
    return re.sub(r'^(cmp x8,)1$',r'\1#1',l)
for n in range(1,13):
    for opt in (True,False):
        for i,(nm,c) in enumerate(arm.routines(n,opt)):
            tot+=1; m=A['%d %s %d'%(n,str(opt).lower(),i)]
            if list(map(anorm,c))==m: same+=1
            else: print('    AArch64',n,opt,nm,list(difflib.unified_diff(list(map(anorm,c)),m,lineterm='',n=0))[2:8])
print('AArch64: %d identical of %d'%(same,tot))
