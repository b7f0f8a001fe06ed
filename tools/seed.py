"""Apply wrong edits to a scratch copy of the model and record which theorems stop proving.

usage: seed.py edits.json      (list of {def, file, old, new, edit, claim})
The scratch copy is /tmp/seed/lean; results are appended to seeded/LOG.jsonl and printed."""
import json, re, subprocess, sys, os, shutil

root = os.path.dirname(os.path.dirname(os.path.abspath(__file__)))
scratch = '/tmp/seed/lean'
subprocess.run(['mkdir', '-p', '/tmp/seed'], check=True)
subprocess.run(['rsync', '-a', '--delete', root + '/lean/', scratch + '/'], check=True) if shutil.which('rsync') else \
    subprocess.run(f'rm -rf {scratch} && cp -a {root}/lean {scratch}', shell=True, check=True)


def enclosing(path, line):
    name = '?'
    for i, l in enumerate(open(path, encoding='utf8'), 1):
        if i > line:
            break
        m = re.match(r'\s*(?:private |protected |noncomputable |@\[[^\]]*\] ?)*(theorem|lemma|def|instance|example|inductive|structure|abbrev)\b\s*([^\s:({\[]*)', l)
        if m:
            name = (m.group(2) or m.group(1)) if m.group(1) != 'example' else f'example at {os.path.basename(path)}:{i}'
    return name


deps = {}
out = subprocess.run('cp ../tools/deps.txt /tmp/deps.lean && lake env lean /tmp/deps.lean', shell=True, cwd=root + '/lean', capture_output=True, text=True).stdout
for l in out.splitlines():
    _, n, d = l.split(' ', 2)
    deps[n[5:]] = {x[5:] for x in d.split(',')}


def lost(stopped):
    """The property theorems that no longer prove: those that use a declaration whose proof fails."""
    return sorted(n for n, d in deps.items() if n in stopped or any(x in d for x in stopped))


def caught(claim, stopped):
    """A theorem of the claim, not only an example of it, is lost."""
    return any(f.startswith(claim + '_') and '_example' not in f for f in lost(stopped))


def give_up(path, name, saved):
    """In the scratch copy, replace the proof of the theorem by a placeholder; False if it is not a theorem."""
    text = open(path, encoding='utf8').read()
    m = re.search(r'^(?:private |protected )?(?:theorem|lemma) ' + re.escape(name) + r'(?=[\s:({\[])', text, re.M)
    if not m:
        return False
    saved.setdefault(path, text)
    end = re.search(r'\n(?=(?:/--|/-!|private |protected |theorem |lemma |def |noncomputable |instance |example|inductive |structure |abbrev |section|end|open |variable|@\[|set_option |omit |namespace ))', text[m.end():])
    stop = m.end() + end.start() if end else len(text)
    depth, k = 0, m.end()
    while k < stop:
        ch = text[k]
        depth += ch in '([{⟨'
        depth -= ch in ')]}⟩'
        if depth == 0 and (text.startswith(':=', k) or text.startswith('\n  | ', k)):
            break
        k += 1
    open(path, 'w', encoding='utf8').write(text[:k] + ' := sorry\n' + text[stop:])
    return True


edits = json.load(open(sys.argv[1], encoding='utf8'))
for e in edits:
    path = f"{scratch}/Verif/{e['file']}"
    src = open(path, encoding='utf8').read()
    if src.count(e['old']) != 1:
        print('SKIP', e['def'], e['edit'], 'matches', src.count(e['old']))
        continue
    open(path, 'w', encoding='utf8').write(src.replace(e['old'], e['new']))
    claim = re.match(r'C\d+', e['claim']).group(0)
    saved = {path: src}
    stopped, rounds = [], 0
    # only the modules with theorems of the claim have to be looked at
    mods = sorted('Verif.Props.' + f[:-5] for f in os.listdir(f'{scratch}/Verif/Props')
                  if f.endswith('.lean') and f'theorem {claim}_' in open(f'{scratch}/Verif/Props/{f}', encoding='utf8').read())
    while True:
        out = subprocess.run('lake build ' + ' '.join(mods) + ' 2>&1', shell=True, cwd=scratch, capture_output=True, text=True).stdout
        now = []
        for m in re.finditer(r'error: (Verif/\S+\.lean):(\d+):', out):
            n = enclosing(f'{scratch}/{m.group(1)}', int(m.group(2)))
            if (m.group(1), n) not in now:
                now.append((m.group(1), n))
        stopped += [n for _, n in now if n not in stopped]
        rounds += 1
        # a failed module hides the ones that import it: give up its failed proofs and look further
        if not now or rounds > 6 or caught(claim, stopped):
            break
        if not all([give_up(f'{scratch}/{f}', n, saved) for f, n in now]):
            break
    for p, text in saved.items():
        open(p, 'w', encoding='utf8').write(text)
    failed = lost(stopped)
    rec = {'definition': e['def'], 'edit': e['edit'], 'claim': e['claim'], 'proof_stops_at': stopped, 'failed': failed,
           'tightened': e.get('tightened', [])}
    open(f'{root}/seeded/LOG.jsonl', 'a', encoding='utf8').write(json.dumps(rec, ensure_ascii=False) + '\n')
    print('caught' if caught(claim, stopped) else 'SURVIVED' if not stopped else 'OTHER', e['def'], '|', e['edit'], '|', e['claim'], '|', stopped[:5], '|', failed[:8], flush=True)
