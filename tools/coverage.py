"""Which functions of /repo are cited (file:lines) by a model definition. Prints a table."""
import ast, glob, os, re
root="/repo/pyvallocation"
cites={}
here=os.path.dirname(os.path.abspath(__file__))
def add(f,a,b): cites.setdefault(f,[]).append((a,b))
for lf in sorted(glob.glob(os.path.join(here,"../lean/Verif/Model/*.lean"))+glob.glob(os.path.join(here,"../lean/Verif/Spec/*.lean"))):
    s=open(lf).read()
    # strings like name.py:12-30, 40-50, 66
    for m in re.finditer(r"(\w+)\.py:(\d+)(?:-(\d+))?((?:, ?\d+(?:-\d+)?)*)",s):
        f=m.group(1); add(f,int(m.group(2)),int(m.group(3) or m.group(2)))
        for k in re.findall(r"(\d+)(?:-(\d+))?",m.group(4)): add(f,int(k[0]),int(k[1] or k[0]))
tot=cov=0
for py in sorted(glob.glob(root+"/**/*.py",recursive=True)):
    f=os.path.basename(py)[:-3]
    if f=="__init__": continue
    t=ast.parse(open(py).read())
    out=[]
    def walk(n,pre):
        for c in ast.iter_child_nodes(n):
            if isinstance(c,ast.ClassDef): walk(c,pre+c.name+".")
            elif isinstance(c,(ast.FunctionDef,)):
                body=[x for x in c.body if not(isinstance(x,ast.Expr) and isinstance(getattr(x,"value",None),ast.Constant))]
                a=body[0].lineno if body else c.lineno; b=c.end_lineno
                lines=set(range(a,b+1)); hit=set()
                for (x,y) in cites.get(f,[]): hit|=lines&set(range(x,y+1))
                out.append((pre+c.name,c.lineno,b,len(lines),len(hit)))
    walk(t,"")
    print("##",os.path.relpath(py,"/repo"))
    for o in out:
        tot+=o[3]; cov+=o[4]
        print(f"{'   ' if o[4] else 'NO '} {o[0]}:{o[1]}-{o[2]}  body {o[3]} cited {o[4]}")
print("TOTAL",tot,cov)
