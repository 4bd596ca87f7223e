#!/usr/bin/env python3
"""Run seeded wrong programs: each mutant edits one model definition in a scratch copy, rebuilds, and
reports the theorems that fail. Usage: seed.py mutants.json out.jsonl"""
import json, os, re, shutil, signal, subprocess, sys, time

SRC = '/verif/lean'
TMP = os.environ.get('SEEDDIR', '/tmp/seed')
DST = TMP + '/lean'
BASE = os.environ.get('SEEDBASE', '/tmp/seedbase')
DECL = re.compile(r'^(?:private |protected |@\[[^\]]*\] ?)*(theorem|lemma|def|example|abbrev|structure|instance)\s*([^\s:({\[]*)')

def decl_at(path, line):
    name = '?'
    for i, l in enumerate(open(path), 1):
        if i > line:
            break
        m = DECL.match(l)
        if m:
            name = m.group(2) or m.group(1)
            if m.group(1) == 'example':
                name = f'example:{os.path.basename(path)}:{i}'
    return name

def sync():
    os.makedirs(DST, exist_ok=True)
    shutil.rmtree(DST)
    subprocess.run(['cp', '-a', BASE, DST], check=True)

def build():
    """Build; stop some time after the first module that fails."""
    after = int(os.environ.get('SEEDAFTER', '45'))
    log = open(TMP + '/build.log', 'w+')
    r = subprocess.Popen(['nice', 'lake', 'build'], cwd=DST, stdout=log, stderr=subprocess.STDOUT, start_new_session=True)
    start, first = time.time(), None
    while r.poll() is None:
        time.sleep(1)
        if first is None and '\nerror: Verif' in open(TMP + '/build.log').read():
            first = time.time()
        if (first and time.time() - first > after) or time.time() - start > 3000:
            os.killpg(r.pid, signal.SIGKILL)
            r.wait()
    return open(TMP + '/build.log').read(), r.returncode

def run(m):
    sync()
    p = f'{DST}/Verif/{m["file"]}'
    t = open(p).read()
    n = t.count(m['old'])
    if n < 1 or (n > 1 and not m.get('all')):
        return {'error': f'{n} matches'}
    t = t.replace(m['old'], m['new'])
    open(p, 'w').write(t)
    out, code = build()
    failed = []
    for f, l in re.findall(r'^error: (Verif/\S+?\.lean):(\d+):', out, re.M):
        d = decl_at(f'{DST}/{f}', int(l))
        if d not in failed:
            failed.append(d)
    mods = sorted(set(re.findall(r'^✖ \[\d+/\d+\] Building (Verif\S*)', out, re.M)))
    model_broken = any(x.startswith('Verif.Model') or x == 'Verif.Basic' for x in mods)
    return {'built': code == 0, 'failed': failed, 'modules': mods, 'model_broken': model_broken}

def main():
    ms = json.load(open(sys.argv[1]))
    os.makedirs(TMP, exist_ok=True)
    if 'SEEDBASE' not in os.environ:
        shutil.rmtree(BASE, ignore_errors=True)
        subprocess.run(['cp', '-a', SRC, BASE], check=True)
    for m in ms:
        try:
            res = run(m)
        except Exception as e:
            res = {'error': str(e)[:300]}
        m2 = dict(m); m2.update(res)
        with open(sys.argv[2], 'a') as f:
            f.write(json.dumps(m2, ensure_ascii=False) + '\n')

if __name__ == '__main__':
    main()
