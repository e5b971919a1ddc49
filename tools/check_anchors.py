"""Check that every anchor in properties.jsonl names an existing file and symbol of /repo."""
import json, ast, os, sys
root = "/repo"
cache = {}
def symbols(path):
    if path not in cache:
        out = set()
        def walk(node, prefix):
            for n in ast.iter_child_nodes(node):
                if isinstance(n, (ast.FunctionDef, ast.ClassDef, ast.AsyncFunctionDef)):
                    out.add(prefix + n.name); walk(n, prefix + n.name + ".")
                elif isinstance(n, (ast.Assign, ast.AnnAssign)):
                    for t in (n.targets if isinstance(n, ast.Assign) else [n.target]):
                        if isinstance(t, ast.Name): out.add(prefix + t.id)
                else: walk(n, prefix)
        walk(ast.parse(open(path).read()), "")
        cache[path] = out
    return cache[path]
bad = 0
for line in open(os.path.join(os.path.dirname(os.path.abspath(__file__)), "..", "properties.jsonl")):
    p = json.loads(line)
    for a in p["anchors"]:
        f, _, s = a.partition(":")
        path = os.path.join(root, f)
        if not os.path.exists(path): print(p["id"], "no file", a); bad += 1
        elif s and path.endswith(".py") and s not in symbols(path): print(p["id"], "no symbol", a); bad += 1
print("bad", bad)
