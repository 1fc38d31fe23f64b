"""Lists every function of /repo/empyricalRMT with the Lean definitions whose comments cite lines inside it."""
import ast, re, pathlib, sys
repo = pathlib.Path('/repo/empyricalRMT')
lean = pathlib.Path(__file__).resolve().parent.parent / 'lean/Verif'
funcs = {}
for f in sorted(repo.rglob('*.py')):
    rel = str(f.relative_to(repo))
    out = []
    def walk(node, pre):
        for c in ast.iter_child_nodes(node):
            if isinstance(c, (ast.FunctionDef, ast.ClassDef)):
                name = pre + c.name
                if isinstance(c, ast.FunctionDef):
                    out.append((name, min([c.lineno] + [d.lineno for d in c.decorator_list]), c.end_lineno))
                walk(c, name + '.')
    walk(ast.parse(f.read_text()), '')
    funcs[rel] = out
cites = {}
for f in sorted((lean / 'Model').glob('*.lean')):
    txt = f.read_text()
    for m in re.finditer(r'/--(.*?)-/\s*(?:@\[[^\]]*\]\s*)?(?:noncomputable |private |protected )*(?:def|structure|inductive|abbrev|instance|theorem)\s+(\S+)', txt, re.S):
        com, name = m.group(1), m.group(2)
        cur = None
        for t in re.finditer(r'`?([\w/]+\.py)`?|lines? (\d+)(?:\s*-\s*(\d+))?|(?<=[\d,])\s*(?:and|,)\s*(\d+)(?:-(\d+))?', com):
            if t.group(1): cur = t.group(1)
            elif cur:
                a = t.group(2) or t.group(4); b = t.group(3) or t.group(5) or a
                cites.setdefault(cur, []).append((int(a), int(b), f.stem + '.' + name))
tot = hit = 0
NOTE = {
 'EigVals.values': 'raises NotImplementedError (abstract)', 'EigVals.vals': 'raises NotImplementedError (abstract)',
 'Compare._test_validate': 'test helper, calls the modelled validation', 'tracy_widom_eigs': 'raises NotImplementedError',
 'generate_uniform': 'raises NotImplementedError', 'Eigenvalues.trim_interactively': 'raises NotImplementedError',
 'Ensemble.nnsd': 'abstract', 'Ensemble.nnnsd': 'abstract', 'Ensemble.spectral_rigidity': 'abstract', 'Ensemble.level_variance': 'abstract',
 'Detrend.__init__': 'empty body', 'TrimReport.summary': 'returns the modelled table', 'TrimReport.evaluate': 'raises NotImplementedError',
 'TrimReport.unfold_trimmed': 'raises NotImplementedError', 'TrimReport.to_csv': 'pandas call on the modelled table',
 'ConvergenceError.__init__': 'exception class, never raised', 'res': 'pathlib call', 'eprint': 'console output', 'log': 'console output',
}
md = '--md' in sys.argv
if md: print('| file | function | lines | model |\n|---|---|---|---|')
for rel, fs in funcs.items():
    cs = [c for k, v in cites.items() if rel.endswith(k) or k.endswith(rel) for c in v]
    for name, a, b in fs:
        ds = sorted({c[2] for c in cs if c[0] <= b and c[1] >= a})
        tot += 1; hit += bool(ds)
        if '-m' in sys.argv and ds: continue
        if md: print(f"| {rel} | `{name}` | {a}-{b} | {', '.join('`%s`' % d for d in ds) if ds else 'not modelled: ' + NOTE.get(name, '')} |")
        else: print(f"{rel}:{a}-{b} {name}: {', '.join(ds) if ds else '---'}")
if not md: print(hit, 'of', tot)
