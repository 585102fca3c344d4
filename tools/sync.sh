#!/bin/bash
# regenerate Verif.lean and MANIFEST.json
cd /verif/lean && find Verif -name '*.lean' | sort | sed 's/\.lean$//; s#/#.#g; s/^/import /' > Verif.lean
python3 /verif/tools/manifest.py
