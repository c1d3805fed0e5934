"""Expands the x86-64 templates /repo/src/*.asm.ejs for a given number of limbs (not the Montgomery builder)."""
import re,sys
def expand(n64,bits,name='Fr'):
    env={'n64':n64,'name':name,'bits':bits}
    out=[]
    cnt=[0]
    def tmp(l='tmp'):
        cnt[0]+=1; return '%s_%d'%(l,cnt[0])
    class G: pass
    g=G(); g.tmpLabel=tmp
    class MB:
        def __getattr__(s,k): return lambda *a: ''
    env.update(q=None,glob=g,OUT=out,montgomeryBuilder=MB(),S=lambda x: '' if x is None else str(x))
    for f in ['utils','copy','montgomery','add','sub','neg','mul','binops','cmpops','logicalops']:
        t=open('/repo/src/%s.asm.ejs'%f).read()
        if f=='utils':
            for m in re.finditer(r'global\.(\w+) = function ?\((\w*)\) \{\nreturn \(\n`(.*?)`\);\n\}',t,re.S):
                nm,arg,body=m.groups()
                def mk(body,arg):
                    def fn(*a):
                        b=body.replace('${ (n64+1)*8 }',str((n64+1)*8)).replace('${name}',name)
                        if arg: b=b.replace('${%s}'%arg,a[0])
                        assert '${' not in b,b
                        return b
                    return fn
                setattr(g,nm,mk(body,arg))
            continue
        toks=re.split(r'(<%.*?%>)',t,flags=re.S)
        src=[];ind=0
        def emit(s): src.append('    '*ind+s)
        def ex(e):
            e=e.strip().rstrip(';').strip()
            e=e.replace('global.','glob.').replace('q.bitLength()','bits')
            m=re.match(r'(.*?)\?(.*?):(.*)$',e)
            if m: e='(%s) if (%s) else (%s)'%(m.group(2),m.group(1),m.group(3))
            if '" + " +(i*8+8)' in e: e='srcPtrReg + " + " + str(i*8+8)'
            return e
        fns=[]
        for tk in toks:
            if tk.startswith('<%='): emit('OUT.append(S(%s))'%ex(tk[3:-2]))
            elif tk.startswith('<%'):
                s=tk[2:-2].strip().rstrip(';')
                m=re.match(r'for \(let (\w+)=(\w+); *\w+(<=?) ?(\w+); *\w+\+\+\) *\{$',s)
                if m: 
                    emit('for %s in range(%s,%s%s):'%(m.group(1),m.group(2),m.group(4),'+1' if m.group(3)=='<=' else '')); ind+=1; emit('pass'); continue
                m=re.match(r'for \(let i=n64-1; i>=0; i--\) \{$',s)
                if m: emit('for i in range(n64-1,-1,-1):'); ind+=1; emit('pass'); continue
                m=re.match(r'if \((.*)\) \{$',s)
                if m: emit('if %s:'%m.group(1)); ind+=1; emit('pass'); continue
                if re.match(r'\} else \{$',s): ind-=1; emit('else:'); ind+=1; emit('pass'); continue
                if s=='}': ind-=1; continue
                m=re.match(r'function (\w+)\((.*?)\) \{$',s)
                if m:
                    a=','.join(x.strip()+'=None' for x in m.group(2).split(',') if x.strip())
                    emit('def %s(%s):'%(m.group(1),a)); ind+=1; emit('pass'); continue
                m=re.match(r'const (\w+) = (.*)$',s)
                if m: emit('%s = %s'%(m.group(1),ex(m.group(2)))); continue
                m=re.match(r'\w+\(.*\)$',s)
                if m: emit(s); continue
                raise Exception('unhandled '+s)
            else:
                if tk: emit('OUT.append(%r)'%tk)
        assert ind==0,(f,ind)
        # functions hoisted in JS: run all defs first
        code='\n'.join(src)
        # move top-level defs to the front
        blocks=[];cur=None
        defs=[];rest=[]
        for line in src:
            if line.startswith('def '): cur=[line]; defs.append(cur)
            elif cur is not None and line.startswith('    '): cur.append(line)
            else: cur=None; rest.append(line)
        exec('\n'.join('\n'.join(d) for d in defs)+'\n'+'\n'.join(rest),env)
    return ''.join(out)
if __name__=='__main__':
    print(expand(int(sys.argv[1]),int(sys.argv[2])))
