#!/usr/bin/env python3
"""st.py Cxx status note: set one entry of tools/status.json."""
import json,sys
f='/verif/tools/status.json'; s=json.load(open(f)); s[sys.argv[1]]={"status":sys.argv[2],"note":sys.argv[3]}
json.dump(dict(sorted(s.items())),open(f,'w'),indent=1)
