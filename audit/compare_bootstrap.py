"""The rules in Model/Bootstrap.lean are those of src/bootstrap/rules.rs: translates the Rust text and compares."""
import re
src=open('/repo/src/bootstrap/rules.rs').read()
src='\n'.join(re.sub(r'^\s*//.*$','',l) for l in src.split('\n'))
tok=re.compile(r'"(?:\\.|[^"\\])*"|[A-Za-z_][A-Za-z_0-9]*!?|\d+|::|[{}()\[\],:;.=&]')
body=src[src.index('let opt'):]
toks=tok.findall(body)
pos=0
consts={}; rules={}; pushes=[]
def peek(k=0): return toks[pos+k]
def eat(x=None):
    global pos
    t=toks[pos]; pos+=1
    assert x is None or t==x,(t,x,toks[pos-5:pos+5])
    return t
def string():
    # Arc::new("..".into()) | name.clone() 
    if peek()=='Arc':
        for x in ['Arc','::','new','(']: eat(x)
        s=eat(); assert s[0]=='"'
        for x in ['.','into','(',')',')']: eat(x)
        return 'c!'+s
    n=eat()
    if peek()=='.':
        for x in ['.','clone','(',')']: eat(x)
    return {'opt':'bsOpt','inv':'bsInv','prop':'bsProp','any':'bsAny','seps':'bsSeps'}[n]
def option():
    if peek()=='None': eat(); return 'none'
    eat('Some'); eat('('); s=string(); eat(')'); return '(some %s)'%s
def rulelist():
    eat('vec!'); eat('['); out=[]
    while peek()!=']':
        out.append(rule())
        if peek()==',': eat()
    eat(']'); return out
def rule():
    eat('Rule'); eat('::'); k=eat(); eat('('); box=False
    if peek()=='Box': eat();eat('::');eat('new');eat('(');box=True
    assert eat()==k; eat('{'); f={}
    while peek()!='}':
        n=eat(); eat(':')
        if n=='args': v=rulelist()
        elif n in('rule','by'): v=rule()
        elif n in('text','any_characters','name'): v=string()
        elif n=='property': v=option()
        elif n=='index': v=eat(); assert v=='None'; v='none'
        else: v=eat()
        f[n]=v
        if peek()==',': eat()
    eat('}')
    if box: eat(')')
    eat(')')
    i=f.pop('debug_id')
    L=lambda xs:'['+','.join(xs)+']'
    p=lambda s:'(%s)'%s
    g=f.pop
    r={'Sequence':lambda:'.sequence %s %s'%(L(g('args')),i),'Select':lambda:'.select %s %s'%(L(g('args')),i),
     'Tag':lambda:'.tag %s %s %s %s %s'%(g('text'),g('not'),g('inverted'),g('property'),i),
     'UntilAny':lambda:'.untilAny %s %s %s %s'%(g('any_characters'),g('optional'),g('property'),i),
     'UntilAnyOrWhitespace':lambda:'.untilAnyOrWs %s %s %s %s'%(g('any_characters'),g('optional'),g('property'),i),
     'Repeat':lambda:'.repeat_ (%s) %s %s'%(g('rule'),g('optional'),i),
     'Node':lambda:'.node %s %s %s %s'%(g('name'),g('property'),g('index'),i),
     'Whitespace':lambda:'.whitespace %s %s'%(g('optional'),i),
     'Text':lambda:'.text %s %s %s'%(g('allow_empty'),g('property'),i),
     'Number':lambda:'.number %s %s %s'%(g('property'),g('allow_underscore'),i),
     'Optional':lambda:'.optional (%s) %s'%(g('rule'),i),
     'SeparateBy':lambda:'.separateBy (%s) (%s) %s %s %s'%(g('rule'),g('by'),g('optional'),g('allow_trail'),i),
     'Lines':lambda:'.lines (%s) %s %s'%(g('rule'),g('indent'),i)}[k]()
    assert not f,(k,f)
    return r
order=[]
while pos<len(toks):
    if peek()=='let' and peek(1)!='mut':
        eat(); n=eat()
        if n=='refs' : pass
        if peek()==':':
            while eat()!=';': pass
            continue
        eat('=')
        if peek()=='Rule' and peek(1)=='::':
            rules[n]=rule(); eat(';')
        else:
            while eat()!=';': pass
    else: 
        t=eat(); order.append(t)
rest=' '.join(order)

m=open('/verif/lean/Verif/Model/Bootstrap.lean').read()
ml={}
for d in re.finditer(r'def bs(\w+) : Rule :=\n(.*?)(?=\n\n)',m,re.S): ml[d[1]]=re.sub(r'\s+',' ',d[2]).strip().replace(', ',',').replace('[ ','[')
camel=lambda s:''.join(w.capitalize() for w in s.split('_'))
ok=0
for n,r in rules.items():
    a=ml.get(camel(n)); b=re.sub(r'\s+',' ',r)
    norm=lambda s:re.sub(r'\s*([\[\],()])\s*',r'\1',s)
    if a is None: print('missing',n); continue
    if norm(a)!=norm(b): print('DIFF',n,'\n',norm(a),'\n',norm(b))
    else: ok+=1
print(ok,"rules are the same of",len(rules),"and",len(ml))
p1=re.findall(r'syntax\.push\(Arc::new\("(\w+)"\.into\(\)\), (\w+)\);',src)
p2=re.findall(r'\.push c!"(\w+)" bs(\w+)',m)
print('same pushes' if [(a,camel(b)) for a,b in p1]==p2 else ('DIFF',p1,p2))
c1={a:b for a,b in re.findall(r'let (\w+): Arc<String> = Arc::new\(("(?:\\.|[^"\\])*")\.into\(\)\);',src)}
c2={a.lower():b for a,b in re.findall(r'def bs(\w+) : Str := c!("(?:\\.|[^"\\])*")',m)}
print('same strings' if c1==c2 else ('DIFF',c1,c2))
