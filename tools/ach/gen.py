import ast
src=open('/repo/newt/qlmACH.py').read()
tree=ast.parse(src)
FN={f.name:f for f in tree.body if isinstance(f,ast.FunctionDef)}
SQ='√'
def prec_expr(e):
    """returns (string, prec)"""
    if isinstance(e,ast.Constant):
        v=e.value
        if isinstance(v,complex):
            im=v.imag
            if im==1: return 'Complex.I',100
            return f'({int(im)} * Complex.I)',100
        if isinstance(v,float):
            from fractions import Fraction
            fr=Fraction(v)
            return f'({fr.numerator} / {fr.denominator})',100
        return str(v),100
    if isinstance(e,ast.Name):
        return e.id,100
    if isinstance(e,ast.UnaryOp) and isinstance(e.op,ast.USub):
        s,p=prec_expr(e.operand)
        if p<70: s=f'({s})'
        return '-'+s,66
    if isinstance(e,ast.BinOp):
        l,pl=prec_expr(e.left); r,pr=prec_expr(e.right)
        ops={ast.Add:('+',65,65,66),ast.Sub:('-',65,65,66),ast.Mult:('*',70,70,71),ast.Div:('/',70,70,71),ast.Pow:('^',75,76,75)}
        o,p,ml,mr=ops[type(e.op)]
        if o=='*' or o=='/':
            if l.startswith('-'): l=f'({l})';pl=100
        if pl<ml: l=f'({l})'
        if pr<mr or r.startswith('-'): r=f'({r})'
        return f'{l} {o} {r}',p
    if isinstance(e,ast.Attribute):
        assert e.attr=='pi'; return 'Real.pi',100
    if isinstance(e,ast.Call):
        f=e.func
        n=f.attr if isinstance(f,ast.Attribute) else f.id
        a=[prec_expr(x)[0] for x in e.args]
        if n=='sqrt': return f'Real.sqrt ({a[0]})',90
        if n in('sin','tan','arccos'): return f'Real.{n} ({a[0]})',90
        if n=='exp': return f'Complex.exp ({a[0]})',90
        if n=='abs': return f'|{a[0]}|',100
        if n=='hyp2f1': return 'hyp2f1 '+' '.join(f'({x})' for x in a),90
        if n in('ellipe','ellipk'): return f'{n} ({a[0]})',90
        raise Exception(n)
    raise Exception(ast.dump(e))
def P(s): return s if ' ' not in s or (s[0]=='(' and s[-1]==')' and bal(s)) or s[0]=='|' else f'({s})'
def bal(s):
    d=0
    for i,c in enumerate(s):
        d+=(c=='(')-(c==')')
        if d==0 and i<len(s)-1: return False
    return True
def names(e): return {n.id for n in ast.walk(e) if isinstance(n,ast.Name)}-{'np','sp','abs','qlm','L'}
AOP={ast.Add:'+',ast.Sub:'-',ast.Mult:'*',ast.Div:'/'}
def idx(t):
    # qlm[l, L+m]
    el=t.slice.elts
    l=el[0].value; m=0 if isinstance(el[1],ast.Name) else el[1].right.value
    return l,m
def process(name):
    """returns helpers [(var,str,names)] , cells {(l,m):(locals,list),lines}"""
    f=FN[name]; params=[a.arg for a in f.args.args][2:]
    body=f.body
    helpers=[]; cells={}; cur={}   # cur: local q.. -> [(op,str,names,line)]
    order=[]
    for st in body:
        if isinstance(st,ast.If):
            if name=='cylhole2' and 'Ek' in ast.dump(st):
                helpers.append(('__if__',None,st.lineno,st.end_lineno))
            continue
        if isinstance(st,ast.Return) or (isinstance(st,ast.Expr)): continue
        tgt=st.targets[0] if isinstance(st,ast.Assign) else st.target
        if isinstance(tgt,ast.Name):
            v=tgt.id
            if v in('qlm','ms','mfac'): continue
            order.append(('v',v,st))
        else:
            if isinstance(tgt.slice,ast.Tuple) and isinstance(tgt.slice.elts[0],ast.Constant):
                order.append(('c',idx(tgt),st))
    # local q vars: those matching q\d+ except q00 helper
    import re
    env={}
    for k,key,st in order:
        s,p=prec_expr(st.value)
        if k=='v':
            loc=re.fullmatch(r'q\d+',key) and key!='q00'
            if not loc:
                helpers.append((key,s,st.lineno,names(st.value)))
            else:
                if isinstance(st,ast.Assign): env[key]=[('=',st.value,st.lineno)]
                else: env[key].append((AOP[type(st.op)],st.value,st.lineno))
        else:
            if isinstance(st,ast.Assign): cells[key]=[[('=',st.value,st.lineno)],None]
            else: cells[key][0].append((AOP[type(st.op)],st.value,st.lineno))
            nm=set()
            for o,e,_ in cells[key][0]: nm|=names(e)
            cells[key][1]={q:list(env[q]) for q in nm if q in env}
            # nested local (q20 uses none)
    return params,helpers,cells
def chain(seq):
    s=None
    for o,e,_ in seq:
        t,p=prec_expr(e)
        if o=='=': s,sp=t,p
        elif o in '+-':
            if p<=65 or t.startswith('-'): t=f'({t})'
            s,sp=f'{s} {o} {t}',65
        else:
            if sp<70 or s.startswith('-'): s=f'({s})'
            if p<=70 or t.startswith('-'): t=f'({t})'
            s,sp=f'{s} {o} {t}',70
    return s
if __name__=='__main__':
    import sys
    for n in sys.argv[1:]:
        pr,h,c=process(n)
        print(n,pr)
        for x in h: print('  H',x)
        for k,(seq,loc) in sorted(c.items()):
            for q,v in loc.items(): print('     ',q,':=',chain(v))
            print('  ',k,chain(seq), min(x[2] for x in seq+sum(loc.values(),[])),max(x[2] for x in seq+sum(loc.values(),[])))
