"""Writes lean/Verif/Demo/ExpModel.lean: the demo functions of /repo/psdr/demos as expressions, translated from the syntax trees of the python sources."""
import ast, sys
R='/repo/psdr/demos/'
BEAM=dict(F='5e3',L='1.5',E='216.62e9',nu='0.27',G='86.65e9')
FUN={'sqrt':'sqrt','log':'log','cos':'cos','sin':'sin','tan':'tan','tanh':'tanh','sinh':'sinh'}
def lit(c,src):
    s=src
    if s.endswith('.'): s=s[:-1]
    return s
class T:
    share=None; open=set()
    def __init__(s,src,env,nvars): s.src=src; s.env=env; s.n=nvars
    def e(s,t,p=0):
        """text of a tree; p: 0 sum, 1 product, 2 power/atom"""
        def par(x,q): return '('+x+')' if q<p else x
        if s.share is not None and id(t) not in s.open:
            k=ast.dump(t)
            if k in s.share:
                if k not in s.done:
                    s.open.add(id(t)); txt=s.e(t,0)
                    s.done[k]='%sS%d'%(s.base,len(s.done)); s.defs.append((s.done[k],txt))
                return s.done[k]
        if isinstance(t,ast.Constant) and t.value==180: return '180'
        if isinstance(t,ast.Constant): return lit(t,ast.get_source_segment(s.src,t))
        if isinstance(t,ast.Name):
            v=s.env[t.id]
            return v if isinstance(v,str) else s.e(v,p)
        if isinstance(t,ast.Attribute) and t.attr=='pi': return 'pi'
        if isinstance(t,ast.UnaryOp) and isinstance(t.op,ast.USub): return '(-'+s.e(t.operand,2)+')'
        if isinstance(t,ast.Subscript): return s.var(t)
        if isinstance(t,ast.Call):
            f=t.func.attr
            if f=='ones': return '1'
            return par('Exp.'+FUN[f]+' '+s.e(t.args[0],3),2)
        if isinstance(t,ast.BinOp):
            a,b=t.left,t.right
            if isinstance(t.op,ast.Add): return par(s.e(a,0)+' + '+s.e(b,1),0)
            if isinstance(t.op,ast.Sub): return par(s.e(a,0)+' - '+s.e(b,1),0)
            if isinstance(t.op,ast.Mult): return par(s.e(a,1)+'*'+s.e(b,2),1)
            if isinstance(t.op,ast.Div): return par(s.e(a,1)+'/'+s.e(b,2),1)
            if isinstance(t.op,ast.Pow):
                neg=False; k=b
                if isinstance(k,ast.UnaryOp): neg=True; k=k.operand
                txt=lit(k,ast.get_source_segment(s.src,k))
                if '.' in txt: return 'Exp.rpow %s %s'%(s.e(a,3),'(-%s)'%txt if neg else txt) if p<3 and p<1 else '(Exp.rpow %s %s)'%(s.e(a,3),'(-%s)'%txt if neg else txt)
                assert not neg
                return par(s.e(a,3)+'^'+txt,2)
        raise Exception(ast.dump(t))
    def var(s,t):
        i=t.slice
        if isinstance(i,ast.Tuple): i=i.elts[1]
        if isinstance(i,ast.UnaryOp): raise Exception('neg')
        return s.names[i.value]
def func(fname,name):
    src=open(R+fname).read()
    tree=ast.parse(src)
    f=[d for d in tree.body if isinstance(d,ast.FunctionDef) and d.name==name][0]
    t=T(src,{},0)
    names={}
    for a,d in zip(f.args.args[::-1],f.args.defaults[::-1]):
        if isinstance(d,ast.Subscript): t.env[a.arg]=BEAM[d.slice.value]
    res=None; base='abcdefghij'
    t.names={}
    rows=None
    def isvec(v): return isinstance(v,ast.Attribute) and v.attr=='T'
    vals=[]
    for st in f.body:
        if isinstance(st,ast.Assign) and isinstance(st.targets[0],ast.Tuple):
            for q,n in enumerate(['x1','x2','x3','x4','x5','x6','x7']): t.env[n]=n if n!='x3' else '17'
            t.names={0:'x1',1:'x2',2:'x4',3:'x5',4:'x6',5:'x7'}
            continue
        if isinstance(st,ast.Assign):
            n=st.targets[0].id; v=st.value
            if n in('X','x','X_shape'): continue
            if isinstance(v,ast.Subscript) and isinstance(v.slice,ast.Tuple):
                t.env[n]=n; t.names[v.slice.elts[1].value]=n
            elif isinstance(v,ast.BinOp) and isinstance(v.left,ast.Subscript) and n=='Lam':
                t.names[v.left.slice.elts[1].value]='Lam'; t.env[n]=ast.parse('Lamdeg*(np.pi/180)',mode='eval').body; t.env['Lamdeg']='Lam'
                t.src2=1
            else: t.env[n]=v
            last=n; continue
        if isinstance(st,ast.Return) and res is None: res=st.value
    if isinstance(res,ast.Name): res=t.env[res.id]
    if not t.names: t.names={0:'b',1:'h'}
    if name=='piston_grad':
        from collections import Counter
        C=Counter(); big={}; ast_of={}
        for x in ast.walk(res):
            if isinstance(x,(ast.BinOp,ast.Call)):
                d=ast.dump(x); C[d]+=1; ast_of[d]=x; big[d]=sum(1 for _ in ast.walk(x))
        t.share={d for d in C if C[d]>=4 and big[d]>=30 and (d.startswith('Call') or d.startswith('BinOp') and isinstance(ast_of[d].op,ast.Add))}
        t.done={}; t.defs=[]; t.base='pistonGrad'
    def go(x):
        if isinstance(x,str): return x
        return t.e(x,0)
    if isinstance(res,ast.Attribute) and res.attr=='T':
        out=[go(r) for r in res.value.args[0].elts]
    else: out=go(res)
    return out,[t.names[i] for i in sorted(t.names)],(f.lineno,f.end_lineno),(t.defs if t.share is not None else [])
if __name__=='__main__':
    L=[('otl_circuit.py','otl_circuit','otl'),('otl_circuit.py','otl_circuit_grad','otlGrad'),('borehole.py','borehole','borehole'),('borehole.py','borehole_grad','boreholeGrad'),
    ('robot_arm.py','robot_arm','arm'),('robot_arm.py','robot_arm_grad','armGrad'),('piston.py','piston','piston'),('piston.py','piston_grad','pistonGrad'),
    ('wing_weight.py','wing_weight','wing'),('wing_weight.py','wing_weight_grad','wingGrad'),
    ('hartmann.py','u_ave','uAve'),('hartmann.py','u_ave_grad','uAveGrad'),('hartmann.py','Bind','bind'),('hartmann.py','Bind_grad','bindGrad'),
    ('golinski.py','golinski_volume','golVol'),('golinski.py','golinski_volume_grad','golVolGrad')]
    for k in [1,2,3,4,5,6,7,8,9,24,25]: L+=[('golinski.py','golinski_constraint%d'%k,'gol%d'%k),('golinski.py','golinski_constraint%d_grad'%k,'gol%dGrad'%k)]
    for a,b in [('area','Area'),('bending','Bending'),('tip_deflect','Tip'),('bending_stress','Stress'),('shear_stress','Shear'),('area_ratio','Ratio'),('twist_buckling','Twist')]:
        L+=[('beam.py','beam_'+a,'beam'+b),('beam.py','beam_'+a+'_grad','beam'+b+'Grad')]
    o=[]
    for f,n,d in L:
        try: out,names,(l0,l1),defs=func(f,n)
        except Exception as ex:
            print(f,n,'FAILED',repr(ex)[:200]); continue
        args=' '.join(names); k=len(names)
        inst=' '.join('(.x %d)'%i for i in range(k))
        for dn,dt in defs:
            o.append('/-- A subexpression that occurs repeatedly in `%s`, %s %d-%d. -/\nnoncomputable def %s : Exp %d :=\n  (fun %s : Exp %d =>\n    %s) %s\n'%(n,f,l0,l1,dn,k,args,k,dt,inst))
        if isinstance(out,list):
            o.append('/-- `%s`, %s %d-%d. -/\nnoncomputable def %sE : List (Exp %d) :=\n  (fun %s : Exp %d =>\n    [%s]) %s\n'%(n,f,l0,l1,d,k,args,k,',\n      '.join(out),inst))
        else:
            o.append('/-- `%s`, %s %d-%d. -/\nnoncomputable def %sE : Exp %d :=\n  (fun %s : Exp %d =>\n    %s) %s\n'%(n,f,l0,l1,d,k,args,k,out,inst))
    head=open('/verif/tools/demoexp_head.txt').read()
    open('/verif/lean/Verif/Demo/ExpModel.lean','w').write(head+'\n'+'\n'.join(o)+'\nend Verif.Demo\n')
