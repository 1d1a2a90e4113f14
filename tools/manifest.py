#!/usr/bin/env python3
"""Writes MANIFEST.json. C[id] = (status, [theorems], note)"""
import json,os
P='Girgs.Props.'
C={}
C['C01']=('proved',['C01_deposit_is_interleaving','C01_extract_is_deinterleaving'],'')
C['C02']=('proved',['C02_extract_deposit','C02_deposit_extract'],'')
C['C03']=('proved',['C03_bmi2_agrees','C03_range_needed'],'')
C['C04']=('proved',['C04_levels_tile','C04_firstCellOfLevel','C04_children','C04_cellOfLevel','C04_level_exists_unique','C04_assertLower_portable'],'')
C['C05']=('proved',['C05_point_in_cell','C05_nesting'],'exact arithmetic')
C['C06']=('proved',['C06_touching_iff','C06_refl_symm','C06_children_of_nontouching'],'')
C['C07']=('proved',['C07_cell_distance'],'exact arithmetic')
C['C08']=('proved',['C08_distance_formula','C08_torus_metric'],'exact arithmetic')
C['C09']=('proved',['C09_pow_to_the'],'exact arithmetic')
exec(open(os.path.join(os.path.dirname(__file__),'claims.py')).read()) if os.path.exists(os.path.join(os.path.dirname(__file__),'claims.py')) else None
ids=[json.loads(l)['id'] for l in open('/verif/properties.jsonl')]
out={'claims':[]}
for i in ids:
    if i in C:
        s,t,n=C[i]
        out['claims'].append({'property':i,'status':s,'theorems':[P+x for x in t],'note':n})
json.dump(out,open('/verif/MANIFEST.json','w'),indent=1)
print(len(out['claims']),'claims of',len(ids))
