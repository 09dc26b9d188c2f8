"""Writes COVERAGE.md: for every function of the repository, the modules of the model that cite it, or why none does."""
import ast, glob, os, re
REPO, OUT = '/repo', '/verif/COVERAGE.md'
WHY = [  # (file pattern, name pattern, reason)
    (r'^noxfile', r'', 'configuration of the test runner'),
    (r'^docs/', r'', 'configuration of the documentation'),
    (r'quantum_gate\.py', r'', 'abstract base class'),
    (r'backend/core\.py', r'', 'abstract base class; the interface is the structure `Backend` in `Mat`'),
    (r'backend/CUDA', r'', 'needs CUDA; covered by C24 to the extent that it implements the same operations'),
    (r'circuit_library/', r'acting_on$', 'one line each, all in `GateObj.actingOn` (`Gates`)'),
    (r'cx\.py', r'dims$', 'nothing reads it'),
    (r'init_states', r'get_init_states', 'nothing calls it'),
    (r'moment\.py', r'pointer$', 'nothing reads the pointers'),
    (r'moment\.py', r'__populate_list|__push_list', 'copies the list of operators into a list; a `Moment` is that list in the model'),
    (r'moment\.py', r'check_igate_at_qreg|placeholder', 'nothing calls it'),
    (r'moment\.py', r'process$', 'empty; `run` calls it for each layer'),
    (r'operator_flow', r'peek$', 'returns the list of layers, `Flow.moments`'),
    (r'operator_flow', r'__placeholder_identity', 'nothing calls it'),
    (r'output\.py', r'distribution|value', 'empty'),
    (r'quantum_circuit', r'print_opflow_list', 'prints the layers'),
    (r'quantum_circuit', r'draw$', 'calls one of the two drawings, which are modelled'),
    (r'utils/linalg', r'isiterable', 'tells an integer from a list of registers: the constructors of `RegArg` (`Gates`)'),
    (r'utils/linalg', r'clip', 'nothing calls it'),
    (r'test/test_backend', r'', 'a test that asserts nothing'),
    (r'test/test_qasm', r'test_parser_1', 'a test that asserts nothing'),
    (r'test_circuit/circuit', r'^Q\.(is_empty|size)|__str__', 'nothing calls it'),
]
cited = {}
for l in sorted(glob.glob('/verif/lean/Verif/**/*.lean', recursive=True)):
    mod = os.path.relpath(l, '/verif/lean/Verif')[:-5]
    for m in re.finditer(r'([A-Za-z_\-/]+\.py)((?::|, | and |,)\s*(\d+(?:-\d+)?)(?:(?:, | and |,\s*)\d+(?:-\d+)?)*)?', open(l).read()):
        for a, b in re.findall(r'(\d+)(?:-(\d+))?', m.group(2) or ''):
            for n in range(int(a), int(b or a) + 1):
                cited.setdefault(os.path.basename(m.group(1)), {}).setdefault(n, set()).add(mod)
rows, total, done, missing = [], 0, 0, []
for f in sorted(glob.glob(REPO + '/**/*.py', recursive=True)):
    rel = os.path.relpath(f, REPO)
    lines = []
    def walk(node, pre):
        global total, done
        for ch in ast.iter_child_nodes(node):
            if isinstance(ch, (ast.FunctionDef, ast.AsyncFunctionDef)):
                c = cited.get(os.path.basename(f), {})
                mods = sorted(set().union(*[c.get(n, set()) for n in range(ch.lineno, ch.end_lineno + 1)]))
                total += 1
                if mods:
                    done += 1
                    txt = ', '.join('`%s`' % m for m in mods)
                else:
                    txt = next(('— ' + r for p, q, r in WHY if re.search(p, rel) and re.search(q, pre + ch.name)), None)
                    if txt is None:
                        missing.append((rel, pre + ch.name)); txt = '— not modelled'
                lines.append('| %d-%d | `%s` | %s |' % (ch.lineno, ch.end_lineno, pre + ch.name, txt))
                walk(ch, pre + ch.name + '.')
            elif isinstance(ch, ast.ClassDef):
                walk(ch, pre + ch.name + '.')
            else:
                walk(ch, pre)
    walk(ast.parse(open(f).read()), '')
    if lines:
        rows.append('\n## %s\n\n| lines | function | cited in |\n|---|---|---|\n%s\n' % (rel, '\n'.join(lines)))
with open(OUT, 'w') as o:
    o.write('# Functions of the repository and the modules that model them\n\nGenerated by `tools/coverage.py` from the citations in '
            'the comments of the Lean files. %d of %d functions are cited; for each of the others the reason is given.\n' % (done, total))
    o.write(''.join(rows))
print(done, total, missing)
