"""Mechanical, line by line translation of src/armbuilder.js to Python, then print every routine for the given widths."""
import re,sys
src=open('/repo/src/armbuilder.js').read()
src=src[src.index('class GenBase'):src.index('function generate(')]
class Reg:
    def __init__(s,n): s.n=n
    def __str__(s): return 'xzr' if s.n==31 else 'x%d'%s.n
    def __radd__(s,o): return o+str(s.n)
class RegVar(list):
    def __init__(s,*a):
        super().__init__(Reg(x) for x in a); s.cur=0
    def getNext(s):
        r=s[s.cur]; s.cur=(s.cur+1)%len(s); return r
    def cut(s,*a):
        v=RegVar(); v.extend(list(s)[slice(*a)] if a else list(s)); return v
def removeSlice(v,st,k):
    p=v.cut(); del p[st:st+k]; return p
def cyclicCopy(v,w):
    c=v.cut(); return [c.getNext() for _ in range(w)]
def expand(v,nr,w):
    n=v.cut()
    while len(n)<w: n.append(Reg(nr))
    return n
class RegPool:
    def __init__(s,k):
        s.pool=[Reg(r) for r in range(k,30) if r!=18]; s.saved=[]
    def assign(s,k):
        v=RegVar()
        for _ in range(k):
            r=s.pool.pop(0); v.append(r)
            if r.n>=19: s.saved.append(r)
        return v
def js(line):
    """one JS statement/condition to Python"""
    e=line
    e=re.sub(r'`\$\{(\w+)\}:`',r'str(\1)+":"',e)
    e=e.replace('this.','self.').replace('this. ','self.').replace('self. ','self.').replace('===','==').replace('!==','!=').replace('new Reg','Reg').replace('undefined','None')
    e=e.replace('self.accum == None','getattr(self,"accum",None) is None')
    e=re.sub(r'Math\.trunc\((.*?) / 4\)',r'(\1 // 4)',e)
    e=re.sub(r'(\w+)\.length\b',r'len(\1)',e)
    e=re.sub(r'\.slice\(',r'.cut(',e)
    e=re.sub(r'!(?=self|\()','not ',e)
    e=e.replace('false','False').replace('true','True')
    # ternaries
    e=e.replace('(i ? rs : self.r1[i])','(rs if i else self.r1[i])').replace('i ? "adcs" : "adds"','"adcs" if i else "adds"').replace('i ? "sbcs" : "subs"','"sbcs" if i else "subs"')
    e=e.replace('self.r1[i ? 1 : 0]','self.r1[1 if i else 0]').replace('j < self.width ? self.r1[j] : Reg(31)','self.r1[j] if j < self.width else Reg(31)')
    e=e.replace('(i == self.width - 1) ? "adc" : "adcs"','"adc" if (i == self.width - 1) else "adcs"').replace('(i) ? "adcs" : "adds"','"adcs" if (i) else "adds"')
    assert '?' not in e,e
    e=e.replace('a.push(','a.append(')
    e=re.sub(r'assert\((.*)\)$',r'assert (\1)',e)
    e=e.replace('+ "_" + i','+ "_" + str(i)')
    return e
out=[];stack=[]   # stack entries: (indent, tail statement or None)
def ind(): return len(stack)
def emit(s): out.append('    '*ind()+s)
inbase=True
lines=src.split('\n')
pend=None   # single statement body pending dedent
i=0
SKIP={'op_func_name','toString','getCode','add_line','op','op_label','op_comment','op_debug','op_empty','makeLabel','getVarName','getMem','getMemWord','hasSavedRegs','assignRegs','releaseRegs','getNextWorkReg'}
skipdepth=None
def close():
    tail=stack.pop()
    if tail:
        out.append('    '*(len(stack)+1)+tail)
single=[]
def finish_single():
    while single:
        single.pop(); close()
def stmt(s):
    s=s.rstrip(';').strip()
    if not s: return
    m=re.match(r'(let|const) (\w+)\s*=\s*(.*)$',s)
    if m: s='%s = %s'%(m.group(2),m.group(3))
    # post increment/decrement inside call
    t=js(s)
    m=re.match(r'(.*)\b(\w)(\+\+|--)(.*)$',t)
    if m and t!=m.group(2)+m.group(3):
        emit(m.group(1)+m.group(2)+m.group(4)); emit('%s %s= 1'%(m.group(2),m.group(3)[0])); return
    t=re.sub(r'^(\w+)\+\+$',r'\1 += 1',t); t=re.sub(r'^(\w+)--$',r'\1 -= 1',t)
    emit(t)
for ln in lines:
    l=ln.split('//')[0].strip() if '"// "' not in ln else ln.strip()
    if not l: continue
    m=re.match(r'class (\w+)( extends GenBase)? \{$',l)
    if m:
        emit('class %s%s:'%(m.group(1),'(GenBase)' if m.group(2) else '(Base)')); stack.append(None); emit('pass'); cls=m.group(1); continue
    if len(stack)==1 and skipdepth is None:
        m=re.match(r'(\w+)\((.*)\)( \{)?$',l)
        if m:
            nm=m.group(1); a=m.group(2).replace('...','*')
            if cls=='GenBase' and (nm in SKIP or nm=='constructor'): skipdepth=0 if m.group(3) else -1; 
            if skipdepth is not None:
                depth=l.count('{')-l.count('}'); continue
            emit('def %s(self%s):'%('__init__' if nm=='constructor' else nm,','+a if a else '')); stack.append(None); emit('pass')
            brace=bool(m.group(3)); pendopen=not brace
            continue
    if skipdepth is not None:
        depth+=l.count('{')-l.count('}')
        if depth==0: skipdepth=None
        continue
    if l=='{':
        if single: single.pop()
        continue   # opening brace on its own line after def/if/else already opened
    if l=='}':
        finish_single()
        close(); continue
    m=re.match(r'\} else if \((.*)\) \{$',l)
    if m: finish_single(); close(); emit('elif %s:'%js(m.group(1))); stack.append(None); continue
    if l in('} else {','} else'): finish_single(); close(); emit('else:'); stack.append(None); continue
    m=re.match(r'else if \((.*)\)$',l)
    if m: finish_single(); emit('elif %s:'%js(m.group(1))); stack.append(None); single.append(1); continue
    if l=='else': finish_single(); emit('else:'); stack.append(None); single.append(1); continue
    m=re.match(r'if \((.*?)\) (.*;)$',l)
    if m and m.group(1).count('(')==m.group(1).count(')'):
        emit('if %s:'%js(m.group(1))); stack.append(None); stmt(m.group(2)); close(); continue
    m=re.match(r'if \((.*)\)( \{)?$',l)
    if m:
        finish_single()
        emit('if %s:'%js(m.group(1))); stack.append(None)
        if not m.group(2):
            # brace may be on the next line
            single.append(1)
        continue
    m=re.match(r'for ?\((.*?);(.*?);(.*?)\) *\{$',l)
    if m:
        a,b,c=[x.strip() for x in m.groups()]
        if a: stmt(a)
        def st(x):
            x=x.strip(); x=re.sub(r'^(\w+)\+\+$',r'\1 += 1',x); x=re.sub(r'^(\w+)--$',r'\1 -= 1',x); return x
        emit('while %s:'%js(b)); stack.append('; '.join(st(x) for x in c.split(','))); continue
    was=bool(single)
    if l.startswith('super('): stmt(l.replace('super(','super().__init__(')); 
    else: stmt(l)
    if was: finish_single()
code='\n'.join(out)
class Base:
    def __init__(self,width,space,name,np,nw):
        self.code=[];self.width=width;self.space=space;self.name=name;self.regPool=RegPool(np);self.workRegs=self.regPool.assign(nw)
        assert width>0
        self.regPool.getSavedRegs=lambda: RegPool_saved(self)
    def op(self,n,*a): self.code.append(n+' '+','.join(map(str,a)) if a else n)
    def op_label(self,l): self.code.append('%s:'%l)
    def op_comment(self,*a): pass
    def op_empty(self): pass
    def makeLabel(self,l): return l
    def getVarName(self,n): return n
    def getMem(self,r,o):
        r=r.n if isinstance(r,Reg) else r
        return '[x%d]'%r if o==0 else '[x%d,%d]'%(r,o)
    def getMemWord(self,r,w): return self.getMem(r,w*8)
    def hasSavedRegs(self): return len(self.regPool.saved)>0
    def assignRegs(self,k): return self.regPool.assign(k)
    def releaseRegs(self,rs): self.regPool.pool.extend(rs)
    def getNextWorkReg(self): return self.workRegs.getNext()
def RegPool_saved(s): return list(s.regPool.saved)
env=dict(globals()); exec(code,env)
def routines(n,opt):
    g=lambda c,*a: env['Gen_'+c](n,'Fr',*a)
    for nm,mk in [("rawAdd",lambda: g("rawAdd","rawAdd",False)),("rawAddLS",lambda: g("rawAdd","rawAddLS",True)),("rawSub",lambda: g("rawSub","rawSub","")),("rawSubSL",lambda: g("rawSub","rawSubSL","SL")),("rawSubLS",lambda: g("rawSub","rawSubLS","LS")),
          ("rawSubRegular",lambda: g("rawSubRegular","rawSubRegular")),("rawNeg",lambda: g("rawNeg","rawNeg")),("rawNegLS",lambda: g("rawNegLS","rawNegLS")),
          ("rawMMul",lambda: g("rawMul","rawMMul",opt)),("rawMMul1",lambda: g("rawMul1","rawMMul1",True,opt)),("rawFromMontgomery",lambda: g("rawMul1","rawFromMontgomery",False,opt)),
          ("rawIsZero",lambda: g("rawIsZero")),("rawIsEq",lambda: g("rawIsEq")),("rawCmp",lambda: g("rawCmp")),("rawCopy",lambda: g("rawCopy")),("rawCopyS2L",lambda: g("rawCopyS2L")),("rawSwap",lambda: g("rawSwap")),
          ("rawAnd",lambda: g("rawBinOp","rawAnd","and")),("rawOr",lambda: g("rawBinOp","rawOr","orr")),("rawXor",lambda: g("rawBinOp","rawXor","eor")),("rawNot",lambda: g("rawBinOp","rawNot","mvn")),("rawShr",lambda: g("rawShr","rawShr")),("rawShl",lambda: g("rawShl","rawShl"))]:
        yield nm,mk().code
