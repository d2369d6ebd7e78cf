#!/usr/bin/env python3
"""Build seeded/LOG.jsonl from the result files of the mutation runs (one JSON object per mutant)."""
import json,sys,glob
TIGHT={'V724':['atoi_iff'],'S507':['C88_one_after_the_other'],'S510':['C88_one_after_the_other'],'I35':['C07_too_long'],'I40':['C07_combined'],'M16':['C38_bad_date'],'M18':['C38_numbers'],'M19':['C38_numbers'],'R01':['C47_extra_lines'],
'R06':['C47_default_branch'],'R07':['C47_default_branch'],'R10':['C47_no_default_name'],'A05':['C41_nothing_dropped'],'W14':['C37_read_iff','C37_read_sound'],
'W16':['C37_read_iff','C37_read_sound'],'Z02':['C52_other_heads_ignored','C52_heads_told_apart'],'Q06':['C22_worker_pool'],'Q07':['C22_worker_pool'],
'X12':['C58_listing_errors'],'U10':['C60_code_line'],'Z10':['C52_own_output'],'E22':['C55_panic'],'E24':['C55_unknown_commit'],'P51':['C65_missing_file'],
'X21':['C58_git_log_fails'],'V09':['C64_success_iff'],'V12':['C64_success_iff'],'N08':['C34_unreadable_file'],'N24':['C52_concurrent_writers_mix'],'N37':['C56_broken_commit_line'],
'N55':['C66_rows','C66_blames','C66_lines','C66_line_data'],'G29':['C67_stale_elements'],'AT21':['C77_only_author_dates'],'AT31':['C77_only_author_dates', 'C77_only_branch_dates'],'AT80':['C38_no_commit'],'AT81':['C38_short_raw_line'],'AT98':['C74_path_or_prev'],'U608':['C66_cut_in_unknown'],'U614':['C72_parser_fails'],'U619':['C88_last_reader']}
NOTE={'W807':'git prints names in the usual case, for which the wrong letters make no difference: no claim is false','W810':'git prints no fractions of a second: no claim is false',
'W813':'no expression that the code uses has \\\\s: harmless edit','W816':'no expression that the code uses has a group in a loop: harmless edit','W832':'the generator drops a last line without a newline (C68_last_line), so the written list is the same: harmless edit','W818':'the code splits with one expression only, which has no start of text: harmless edit',
'J402':'the number of values that are sent on the channel has no effect that anyone sees; harmless edit','A108':'harmless edit, on purpose: the theorem must still prove','A109':'harmless edit, on purpose: the theorem must still prove','I38':'equivalent program (the definition was redundant and has been removed from the model)','L10':'equivalent on every log that git prints',
'I20':'equivalent program; only a helper lemma failed','Q01':'equivalent program','Y04':'equivalent program (the operating system gives the same result)',
'J03':'equivalent for users; a helper lemma about the cache failed','P54':'equivalent on every log that git prints (Describes.rest)',
'C104':'equivalent on every path that git prints (no path begins with ../)','D104':'changes the text of an error message only','AT05':'no path that git prints has .. after cleaning; unreachable','AT06':'no path that git prints begins with /..; unreachable','AT23':'git prints the names in this spelling; no claim on others','AT40':'no pattern of the program meets a vertical tab in a text where it matters','AT43':'no pattern of the program has nested groups','AT45':'no pattern of the program matches the empty text','AT46':'no pattern of the program has an open class','AT47':'no pattern of the program has an empty class','AT72':'the pattern always compiles (C70), so the default is not used','AT84':'the directory is removed before the rename (C35); unreachable','U601':'equivalent program: a point at the end is refused anyway, because the zone is missing','U603':'equivalent program: no name of a month or a day has a z','U630':'harmless edit: the name of a hypothesis','T58':'equivalent for the separator in use, which has one byte'}
seen={}
for f in sys.argv[1:]:
    for l in open(f):
        r=json.loads(l)
        # the same id in a later round is the same mutant run again only if the edit is the same
        if r['id'] in seen and (seen[r['id']]['file'],seen[r['id']]['old'],seen[r['id']]['new'])!=(r['file'],r['old'],r['new']) and seen[r['id']]['status'].rstrip('?') not in('NOMATCH','AMBIG'):
            r['id']=f.split('/')[-1].replace('.jsonl','')+'-'+r['id']
        seen[r['id']]=r
out=[]
for i,r in seen.items():
    st=r['status'].rstrip('?')
    # errors only in theorems of the edited file
    if st=='NOCOMPILE' and r['errors'] and not any(e.split(': ')[1].startswith(('def ','instance ')) or e.split(': ')[1]==r.get('def') for e in r['errors']): st='KILLED'
    if st in('NOMATCH','AMBIG'): continue
    d={'id':i,'file':'lean/Verif/'+r['file'],'definition':r.get('def','').replace('def ',''),'edit':{'old':r['old'],'new':r['new']},'breaks':r['claim'],
       'theorems_failed':[e.split(': ')[1] for e in r['errors']] if st=='KILLED' else [],
       'failed_in':sorted(set(e.split(': ')[0] for e in r['errors'])) if st=='KILLED' else [],'theorems_tightened':TIGHT.get(i,[])}
    if st=='NOCOMPILE': d['result']='the edited model does not type check'+('; repeated as '+i+'_2' if i+'_2' in seen else '')
    elif st=='KILLED': d['result']='caught'
    elif st=='SURVIVED':
        d['result']='not caught; tightened and repeated as '+i+'_2' if i in TIGHT else 'not caught'
    else: d['result']=st
    if i in NOTE: d['note']=NOTE[i]
    out.append(d)
with open('/verif/seeded/LOG.jsonl','w') as f:
    for d in out: f.write(json.dumps(d,ensure_ascii=False)+'\n')
from collections import Counter
print(Counter(d['result'].split(';')[0] for d in out))
print([d['id'] for d in out if d['result'] in('not caught','TIMEOUT','FAIL')])
