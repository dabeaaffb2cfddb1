#!/usr/bin/env python3
"""Add a property, its manifest entry and its DESIGN line. Reads a JSON object from stdin with keys
id,title,statement,quantifier,why_tests_cant,anchors,status,theorems,note,design."""
import json,sys,re,os
e=json.load(sys.stdin)
R=os.path.dirname(os.path.dirname(os.path.abspath(__file__)))
k=("id","title","statement","quantifier","why_tests_cant","anchors")
open(R+"/properties.jsonl","a").write(json.dumps({x:e[x] for x in k},ensure_ascii=False)+"\n")
p=R+"/tools/mkmanifest.py"; s=open(p).read()
prev=[x for x in s.split("\n") if re.match(r'"C\d\d":',x)][-1]
s=s.replace(prev,prev+'\n"%s":(%s,%s,%s),'%(e["id"],e["status"],json.dumps(e["theorems"]),json.dumps(e["note"],ensure_ascii=False)))
open(p,"w").write(s)
p=R+"/DESIGN.md"; s=open(p).read()
s=s.replace("\n\n## Findings","\n* **%s** %s\n\n## Findings"%(e["id"],e["design"])); open(p,"w").write(s)
