#!/usr/bin/env python3
"""Builds seeded/LOG.jsonl from the results of the mutation runs (tools/mut/results/*.jsonl; a later run of a mutation replaces an
earlier one, the earlier one is mentioned as 'before tightening') and the dependency table (which property theorem uses which lemma)."""
import json,os,re,sys
here=os.path.dirname(os.path.abspath(__file__)); R=here+'/mut/results'
deps={}
for l in open(os.environ.get('DEPS','/tmp/mut/deps.txt')):
    n,cs=l.rstrip('\n').split('\t'); deps[n]=set(cs.split())
# property ids of the first three lists, which were numbered by an earlier plan
PID={}
def s(ids,p):
    for i in ids.split(): PID[i]=p
s('tc01 tc02 tc17 tc18 mp17','C20'); s('tc03 tc04','C19, C61'); s('tc05 tc06 tc07 tc08 tc10 tc11 tc15 tc20 mp16','C61'); s('tc09 tc19 mp09','C24')
s('tc12 tc13 tc14 tc16','C22'); s('tc21','C21'); s('tc22 mp01 mp08 cc10','C25'); s('mp02 mp03 mp04 mp05 mp07 mp10','C23'); s('mp06','C23, C65')
s('mp11','C26, C65'); s('mp12','C26'); s('mp13 mp14 mp15 co07','C27'); s('mp18 sv06','C80'); s('tm01 tm02 tm03 tm04 tm05','C17')
s('cc01 cc02 cc03 cc04 cc06 cc07 cc09','C21'); s('cc05 cc08','C18'); s('bc01 bc02 bc03 bc04 bc05 bc06 bc07','C29')
s('st01 st04 st06 st07 st09 st10','C31'); s('st02 st03 co08 co24 co25','C32'); s('st05','C33'); s('st08','C34')
s('ep01 ep02 ep03 ep04 ep05 ep06 ep07 ep08','C54'); s('rp01 rp02 rp03 rp04 rp06 rp08','C53'); s('rp05 rp07','C66')
s('sv01 sv02 sv03 sv04 sv05','C67'); s('sv07 sv09','C30'); s('sv08','C81'); s('cn01 cn02 cn03 cn04 cn05 cn07','C60'); s('cn06 pe07 pe08 pe18','C55')
s('cn08 pe14 pe15 pe17','C74'); s('pe01 pe02 pe06 pe11 pe13','C56'); s('pe03 pe04','C57'); s('pe05 pe09 pe10 pe23','C58'); s('pe12 pe19','C76')
s('pe16','C75'); s('pe20 pe21','C59, C76'); s('pe22','C77'); s('oc01 oc02 oc03 oc04','C42'); s('me01 me02 me03','C52')
s('ap01 ap06 ap07','C51'); s('ap02 ap03 ap04 ap05','C62'); s('ms01 ms02 ms03 ms04 ms05','C50'); s('hx01 hx02 hx03 hx04 hx05','C49, C51')
s('cl01 cl02 cl03 cl04 cl06 cl07 cl08','C41'); s('cl05','C63'); s('co01 co20 co30 co31','C37'); s('co02 co03 co04 co06','C78'); s('co05 co09 co14 co17','C35')
s('co10','C36'); s('co11','C40'); s('co12 co29','C65'); s('co13','C88'); s('co15 co16 co18 co19 co23','C38'); s('co21','C13'); s('co22','C16')
s('co26','C10'); s('co27','C78'); s('co28','C69'); s('co32','C73'); s('ex27','C15'); s('rl01 rl02 rl03 rl06','C43'); s('rl04','C43, C46'); s('rl05','C47')
s('fc01 fc03 fc05 fc06','C44'); s('fc02 fc07','C45'); s('fc04 fc08','C44, C35'); s('pb01 pb02 pb03 pb04 pb05 pb07','C48'); s('pb06','C47, C48')
s('ty01','C49'); s('ty02','C85'); s('ty03','C51, C12')
TITLE={}
for l in open(here+'/../properties.jsonl'):
    j=json.loads(l); TITLE[j['id']]=j['title']
TIGHT={'mp14':['C27_incomplete_answer_rejected'],'cc06':['C21_rejected_leaves_nothing'],'cc10':['C25_concurrent_partial'],'rp05':['C66_reused_id'],
 'rp07':['C66_unsent'],'sv06':['C80_received_not_gossiped'],'sv08':['C81_heard'],'cn08':['PM.C74_timed_out_dial_keeps_address'],
 'pe15':['PM.C74_forgotten_only_after_six_failures'],'pe16':['PM.C75_round_waits_partial'],'pe12':['PM.C76_recorded_addresses_known'],'pe19':['PM.C76_not_attributed_to_others'],
 'pe22':['PM.C77_session_closed_partial'],'co03':['C78_own_proposal_accepted'],'co04':['C78_header_partial'],'co26':['C10_commit_panics_refuted'],
 'au03':['C69_height'],'ke04':['PM.C74_network','PM.C77_network_partial'],'ke05':['PM.C74_network','PM.C74_ping_clears'],'ke06':['PM.C74_network'],'ke10':['PM.C74_network'],
 'ke13':['PM.C74_network'],'ke09':['PM.C76_repeated'],'ke11':['PM.C84_misbehaving_forgotten'],'ke12':['PM.C76_network'],'pm08':['PM.C58_no_repeated_dial'],
 'pm10':['PM.C57_dialled_at_start'],'co21':['C13_first_start'],'ex27':['C85_bytes_refine'],'ty02':['C85_bytes_refine'],'sv06':['C80_received_not_gossiped']}
NOTE={'tc21':'Equivalent in the sequential model (nothing can be left over there); the concurrent counterpart is cc11.',
 'pb07':'Equivalent for everything the encoders produce; no property speaks about repeated fields.',
 'be14':'Equivalent in every state the simulation relates (roots of reachable states are always readable).',
 'be15':'Equivalent in every state the simulation relates (stored bytes always decode).',
 'as08':'The build of Props/ApiServer runs out of memory after apiInsert_ok has failed.','as09':'The build of Props/ApiServer runs out of memory after apiInsert_ok has failed.',
 'ty03':'The proof search of natOfBE_u64BE runs out of memory.','cc18':'Seen once the failing example before it is removed.',
 'co21':'The witnesses of three refutations fail; C13_first_start was added so that a property theorem fails.'}
FAILED={'as08':['Props/ApiServer:apiInsert_ok'],'as09':['Props/ApiServer:apiInsert_ok'],'ty03':['Props/Api:natOfBE_u64BE'],'cc06':['Props/TxCacheConc2:C21_rejected_leaves_nothing'],
 'sv06':['Props/Server2:C80_received_not_gossiped'],'cc10':['Props/TxCacheConc2:Bound.step'],'co21':['Props/Consensus2:C35_refuted','Props/Consensus2:C36_refuted','Props/Consensus2:C37_refuted','Props/Agreement:C13_first_start']}
res={};first={}
for f in sorted(os.listdir(R),key=lambda f:int('0'+re.sub(r'\D','',f))):
    for l in open(f'{R}/{f}'):
        j=json.loads(l); i=j['id']
        if i.endswith('r') and i[:-1] in res: i=i[:-1]
        j['failed']=[x for x in j['failed'] if not x.endswith(':?')]
        if i in res: first.setdefault(i,res[i])
        res[i]=j
EXTRA=json.load(open(here+'/mut/extra.json')) if os.path.exists(here+'/mut/extra.json') else {}
TIGHT.update(EXTRA.get('tight',{})); NOTE.update(EXTRA.get('note',{})); FAILED.update(EXTRA.get('failed',{}))
out=open(here+'/../seeded/LOG.jsonl','w'); n=0;surv=[]
for i,j in res.items():
    ex=[x for x in j['failed'] if x.endswith(':example')]
    fl=[x for x in j['failed'] if not x.endswith(':example')]
    fl=fl or FAILED.get(i,[])
    if i in FAILED: fl=sorted(set(fl)|set(FAILED[i]))
    names=[x.split(':')[1] for x in fl]
    hit=sorted(t for t,cs in deps.items() if any(c==m or c.endswith('.'+m) for m in names for c in cs))
    text=re.sub(r'^(C\d+(?: \(\w+\)| concurrent| refuted|_refuted)?(?:[/,] ?C\d+)*)(: ?| |$)','',j['claim']) if i in PID else j['claim']
    pid=PID.get(i)
    if pid and not text: text='; '.join(TITLE[x] for x in pid.split(', '))
    claim=f'{pid}: {text}' if pid else text
    e=dict(id=i,definition=j['definition'],edit=j['edit'],claim=claim,failed=fl or (['(the model itself no longer compiles)'] if j['model_error'] else []),
           property_theorems_failed=[t.replace('Huobi.','') for t in hit],tightened=TIGHT.get(i,[]))
    if ex or j.get('examples'): e['examples_failed']=True
    if i in first and not [x for x in first[i]['failed'] if not x.endswith(':example')]: e['before_tightening']='survived' if first[i]['rc']==0 else 'only an example failed'
    if i in NOTE: e['note']=NOTE[i]
    out.write(json.dumps(e,ensure_ascii=False)+'\n'); n+=1
    if not hit: surv.append((i,e['failed'],e.get('note')))
print(n,'mutations;',len(surv),'without a failing property theorem:')
for x in surv: print(' ',*x)
