"""Apply wrong edits to the model in a scratch copy and record which theorems fail.

usage: mutate.py mutants.json [results.jsonl]   (each mutant: file, def, old, new, edit, claim)
The scratch copy is /tmp/mut/lean; results go to /tmp/mut/out.jsonl by default.
"""
import json, re, subprocess, sys, os, time
SRC = '/verif/lean'
DST = '/tmp/mut/lean'

def sync():
    os.makedirs('/tmp/mut', exist_ok=True)
    subprocess.run(['rm', '-rf', DST], check=True)
    subprocess.run(['cp', '-a', SRC, DST], check=True)

def enclosing(path, line):
    name = None
    for i, l in enumerate(open(path), 1):
        if i > line: break
        m = re.match(r'(?:@\[.*\]\s*)?(?:private |protected |noncomputable )?(theorem|def|instance|example|lemma|abbrev|structure)\b\s*([^\s:({\[]*)', l)
        if m: name = m.group(2) if m.group(1) != 'example' else 'example@%s:%d' % (os.path.basename(path), i)
    return name

def run(m):
    p = '%s/Verif/%s' % (DST, m['file'])
    t = open(p).read()
    n = t.count(m['old'])
    if n != 1: return {**m, 'result': 'bad pattern (%d)' % n}
    open(p, 'w').write(t.replace(m['old'], m['new']))
    t0 = time.time()
    r = subprocess.run(['lake', 'build', 'Verif'], cwd=DST, capture_output=True, text=True)
    out = r.stdout + r.stderr
    failed = []
    modeldead = False
    for f, l in re.findall(r'error: (Verif/\S+?\.lean):(\d+):', out):
        if '/Model/' in f: modeldead = True
        x = enclosing(DST + '/' + f, int(l))
        x = '%s' % x
        if x not in failed: failed.append(x)
    mods = re.findall(r'^- (\S+)', out, re.M)
    open(p, 'w').write(t)
    return {**m, 'result': 'model does not build' if modeldead else ('survived' if r.returncode == 0 else 'killed'), 'failed': failed,
            'modules': mods, 'secs': round(time.time() - t0)}

if __name__ == '__main__':
    sync()
    ms = json.load(open(sys.argv[1]))
    out = open(sys.argv[2] if len(sys.argv) > 2 else '/tmp/mut/out.jsonl', 'w')
    for m in ms:
        r = run(m)
        out.write(json.dumps(r, ensure_ascii=False) + '\n'); out.flush()
        print(r['result'], '|', m['def'], '|', m['edit'], '|', r.get('failed', [])[:6], r.get('secs'), flush=True)
