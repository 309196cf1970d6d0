#!/usr/bin/env python3
"""Convert results of the mutation runs (kept outside /verif) to seeded/LOG.jsonl: usage seedlog.py results.jsonl...
Later files override earlier ones for the same edit."""
import json, sys, re, glob
TIGHT = {
 ('entryRoot','root is the second node'): (['C59_navigate'], 'no theorem mentioned root_node(); C59_navigate was added and fails for this edit'),
 ('navIsBot','*'): (['C59_sinks'], 'C59_sinks was added after this edit passed'),
 ('closeLoop','*'): (['C52_missing_noticed_late', 'C52_close_again'], ''),
 ('DepthTab.insert','*'): (['C53_again'], ''),
 ('markRec','mark() does not mark'): (['C69_mark_all'], 'first passed: no theorem mentioned mark(); C69 was added and fails for this edit'),
 ('closeArc','missing arcs not reported'): (['C52_missing_noticed_late'], ''),
 ('uniqueFind','vars[v] accepted one past the end'): (['C06_undeclared'], 'first passed: only calls outside every precondition are affected; C06_undeclared was added'),
 ('visit','postorder lists high before low'): (['C25_exact'], 'first only proof steps failed; C25_exact pins the order'),
}
NOTE = {
 ('gvKey','sinks grouped by their own index'): 'passes, as it should: only the layout of the drawing changes',
 ('gvLast','invisible arrows leave from the first node'): 'passes, as it should: only the layout of the drawing changes',
 ('gvVars','keys not sorted'): 'passes, as it should: only the layout of the drawing changes',
 ('releaseSlots',): 'Props/Destroy.lean no longer compiles: elaboration runs out of memory at the false step',
 ('pickMax','xor splits on the smaller variable (the repaired program)'): 'the concrete refutations C07_refuted, C08_refuted are false of the repaired program and no longer compile',
 ('shrinkMove','shrinking drops every node'): 'passes: every attempt to shrink crashes (C35_shrink_crashes), also with this edit, so what was moved is never observed',
 ('DepthTab.check','asserted calls made in the wrong kind of build'): 'passes: the asserted call has no effect on any observable of the model in either build',
 ('closeArc','true terminal mapped to the false sink'): 'passes: no function of the API leaves this marker in an arc, so the branch is never taken',
 ('uniqueFindAux','equivalent change'): 'passes, as it should: the edited program behaves the same',
 ('Memo.double','number of occupied memo slots forgotten (only affects when it grows)'): 'passes, as it should: no claim depends on when the cache grows',
}
NOTE[('entryAnd','failure returns the first entry')] = 'passes, as it should: the conjunction is called without limit, it fails only with 2^64 or more nodes (C74_entry_and)'
NOTE[('rawReverse','the range is reversed (the defect is repaired)')] = 'the concrete refutation is false of the repaired program'
NOTE[('orRecT','parameters of the swapped call are not copied (balanced: still correct)')] = 'the claim stays true of this edit; the step-by-step proof no longer matches'
NOTE[('xorRecT','the wrong operand is copied (balanced: still correct)')] = 'the claim stays true of this edit; the step-by-step proof no longer matches'
NOTE[('Memo.double','the occupancy is forgotten when the cache grows')] = 'passes, as it should: no claim depends on when the cache grows'
NOTE[('cTmpBot','temporary code of the bottom sink equals that of the top sink')] = 'passes: no function of the API leaves this marker in an arc, so the branch is never taken'
NOTE[('cTmpTop','temporary code of the top sink equals the undefined arc')] = 'passes: no function of the API leaves this marker in an arc, and undefined arcs are recognised before'
RELABEL = {('Memo.double','the occupancy is forgotten when the cache grows'): 'none', ('cTmpBot','temporary code of the bottom sink equals that of the top sink'): 'none', ('cTmpTop','temporary code of the top sink equals the undefined arc'): 'none', ('atLeast','bound off by one'): 'C18 C21', ('cardinality','bound off by one'): 'C20 C21', ('nrSimul','*'): 'C38'}
modthms = {}
for f in glob.glob('/verif/lean/Verif/Props/*.lean'):
    m = 'Verif.Props.' + f.split('/')[-1][:-5]
    modthms[m] = re.findall(r'^theorem (C\d\d_\w+)', open(f).read(), re.M)
res = {}
for fn in sys.argv[1:]:
    for l in open(fn):
        r = json.loads(l)
        k = (r['defn'], r['old'], r['new'])
        if k in res: r['first'] = res[k]
        res[k] = r
out = []
for r in res.values():
    k = (r['defn'], r['edit'])
    br = RELABEL.get(k, RELABEL.get((r['defn'], '*'), r['breaks'])).split()
    claim = 'none (behaviour-preserving edit)' if br == ['none'] else ', '.join(br)
    failed = [x.replace('LBDD.', '') for x in r['failed']]
    tight, n = TIGHT.get(k, TIGHT.get((r['defn'], '*'), ([], '')))
    n = n or NOTE.get(k, NOTE.get((r['defn'],), ''))
    if r.get('mods') and not r['passed'] and not failed:
        t = [x for m in r['mods'] for x in modthms.get(m, [])]
        if t:
            failed = t
            n = n or 'the module of these theorems no longer compiles (elaboration ends without a position, out of memory at a false closed step)'
    if 'first' in r and r['first']['passed'] and not r['passed']:
        n = n or 'passed when first tried; fails now'
    d = {'definition': r['defn'], 'file': r['file'], 'edit': r['edit'], 'old': r['old'], 'new': r['new'], 'claim_broken': claim,
         'build_failed': not r['passed'], 'first_failing': sorted({e[2] for e in r['errs']}), 'theorems_failed': failed, 'theorems_tightened': tight}
    if n: d['note'] = n
    out.append(d)
with open('/verif/seeded/LOG.jsonl', 'w') as h:
    for d in out: h.write(json.dumps(d) + '\n')
print(len(out), sum(d['build_failed'] for d in out))
