"""Independent Python rendering of src/asmbuilder.js and src/montgomerybuilder.js (text output)."""
import sys
class B:
    INS={"adcx":["IOR","I"],"adox":["IOR","I"],"shl":["IOR","I"],"shr":["IOR","I"],"sub":["IO","I"],"sbb":["IO","I"],
         "cmp":["I","I"],"test":["I","I"],"mov":["O","I"],"mulx":["OR","OR","I"],"xor":["IO","O"]}
    ALL="rax rbx rcx rdx rdi rsi rsp rbp r8 r9 r10 r11 r12 r13 r14 r15".split()
    def __init__(s,name,need):
        s.av="rax r8 r9 r10 r11".split(); s.pu="r12 r13 r14 r15 rbp rbx".split()
        s.code=[]; s.name=name; s.need=need; s.asg=[]
        if need>len(s.av)+len(s.pu):
            s.used=len(s.av)+len(s.pu)-1; s.wr=[s.pu[-1]]; s.pushed=s.pu
        else:
            s.used=need; s.wr=None; k=need-len(s.av); s.pushed=s.pu[:k]
        s.ref=[s.av[i] if i<len(s.av) else s.pu[i-len(s.av)] if i<s.used else "[rsp + %d]"%((i-s.used)*8) for i in range(need)]
    def idx(s,r):
        for i,a in enumerate(s.asg):
            if a["ref"]==r: return i
        return -1
    def flush(s,rem):
        for i in range(len(s.asg)-1,-1,-1):
            a=s.asg[i]
            if a["mod"]:
                s.code.append("mov %s, %s"%(s.ref[a["ref"]],a["reg"])); a["mod"]=False
            if rem:
                s.wr.append(a["reg"]); s.asg.pop()
    def load(s,r,lv):
        i=s.idx(r)
        if i>=0: s.asg.append(s.asg.pop(i))
        else:
            if not s.wr:
                a=s.asg[0]
                if a["mod"]: s.code.append("mov %s, %s"%(s.ref[a["ref"]],a["reg"]))
                s.wr.append(a["reg"]); s.asg.pop(0)
            a={"reg":s.wr.pop(0),"ref":r,"mod":False}
            s.asg.append(a)
            if lv: s.code.append("mov %s, %s"%(a["reg"],s.ref[r]))
        return s.asg[-1]
    def op(s,n,*args):
        inst=s.INS[n]; assert len(inst)==len(args)
        du=dl=-1
        for i,a in enumerate(args):
            if isinstance(a,str):
                if a not in s.ALL:
                    if du>=0:
                        assert dl<0,"two loads"
                        dl=du; du=i
                    du=i
            elif a>=s.used:
                if du>=0 or "R" in inst[i]:
                    assert dl<0,"two loads"
                    dl=i
                else: du=i
        ps=[]
        for i,a in enumerate(args):
            if isinstance(a,str): ps.append(a)
            elif a<s.used: ps.append(s.ref[a])
            elif dl>=0 and a==args[dl]:
                ps.append(s.load(a,"I" in inst[i])["reg"])
                if "O" in inst[i]: s.asg[s.idx(a)]["mod"]=True
            else: ps.append(s.ref[a])
        s.code.append("%s %s"%(n,",".join(ps)))
    def get(s):
        h=[]
        if s.need>s.used: h=["sub rsp, %d"%((s.need-s.used)*8)]
        for r in s.pushed: h.insert(0,"push "+r)
        f=[]
        if s.need>s.used: f.append("add rsp, %d"%((s.need-s.used)*8))
        for r in s.pushed: f.append("pop "+r)
        return [s.name+":"]+h+s.code+f+["ret"]
def tmpl(fn,n,opt,upper):
    t=4; c=B(fn,4+n+1+(0 if opt else 1))
    c.op("mov","rcx","rdx"); c.op("mov",2,"[ np ]"); c.op("xor",3,3)
    for i in range(n):
        upper(c,n,opt,t,i)
        c.op("mov","rdx",2); c.op("mulx",0,"rdx",t); c.op("mulx",1,0,"[q]"); c.op("adcx",0,t)
        for j in range(1,n):
            c.op("mulx",(j+1)%2,t+j-1,"[q +%d]"%(j*8)); c.op("adcx",t+j-1,j%2); c.op("adox",t+j-1,t+j)
        c.op("mov",t+n-1,3); c.op("adcx",t+n-1,n%2); c.op("adox",t+n-1,t+n)
        if not opt: c.op("mov",t+n,3); c.op("adcx",t+n,3); c.op("adox",t+n,t+n+1)
    c.flush(False)
    if not opt: c.op("test",t+n,t+n); c.code.append("jnz %s_sq"%fn)
    for i in range(n-1,-1,-1):
        c.op("cmp",t+i,"[q + %d]"%(i*8)); c.code.append("jc %s_done"%fn); c.code.append("jnz %s_sq"%fn)
    c.code.append(fn+"_sq:"); c.flush(True)
    for i in range(n): c.op("sub" if i==0 else "sbb",t+i,"[q +%d]"%(i*8))
    c.flush(True); c.code.append(fn+"_done:"); c.flush(True); c.asg=[]
    for i in range(n): c.op("mov","[rdi + %d]"%(i*8),t+i)
    return c.get()
def tail(c,n,opt,t):
    c.op("mov",t+n,3); c.op("adcx",t+n,(n-1)%2)
    if not opt: c.op("mov",t+n+1,3); c.op("adcx",t+n+1,3)
def zero(c,n,opt,t): c.op("mov",t+n+1 if not opt else t+n,3)
def rest(c,n,opt,t,b):
    zero(c,n,opt,t)
    for j in range(n): c.op("mulx",1,0,"[%s +%d]"%(b,j*8)); c.op("adcx",t+j,0); c.op("adox",t+j+1,1)
    c.op("adcx",t+n,3)
    if not opt: c.op("adcx",t+n+1,3); c.op("adox",t+n+1,3)
def first(c,n,opt,t,b,first):
    c.op("mulx",0,t,first)
    for j in range(1,n): c.op("mulx",j%2,t+j,"[%s +%d]"%(b,j*8)); c.op("adcx",t+j,(j-1)%2)
    tail(c,n,opt,t)
def mul(c,n,opt,t,i):
    c.op("mov","rdx","[rsi + %d]"%(i*8))
    first(c,n,opt,t,"rcx","[rcx]") if i==0 else rest(c,n,opt,t,"rcx")
def sq(c,n,opt,t,i):
    c.op("mov","rdx","[rsi + %d]"%(i*8))
    first(c,n,opt,t,"rsi","rdx") if i==0 else rest(c,n,opt,t,"rsi")
def mul1(c,n,opt,t,i):
    if i==0: c.op("mov","rdx","rcx"); first(c,n,opt,t,"rsi","[rsi]")
    else: zero(c,n,opt,t)
def frm(c,n,opt,t,i):
    if i==0:
        for j in range(n): c.op("mov",t+j,"[rsi +%d]"%(j*8))
        c.op("mov",t+n,3)
        if not opt: c.op("mov",t+n+1,3)
    else: zero(c,n,opt,t)
def routines(n,opt):
    for nm,u in (("rawMMul",mul),("rawMSquare",sq),("rawMMul1",mul1),("rawFromMontgomery",frm)):
        yield nm,tmpl("Fr_"+nm,n,opt,u)
