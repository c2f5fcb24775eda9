#!/usr/bin/env python3
"""st.py ID STATUS NOTE: set a status entry."""
import json,sys
f='/verif/tools/status.json'; d=json.load(open(f)); d[sys.argv[1]]=[sys.argv[2],sys.argv[3]]
json.dump(d,open(f,'w'),indent=0,ensure_ascii=False)
