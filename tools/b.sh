#!/bin/bash
# build a module showing only errors (and optional warnings)
cd ${ROOT:-/verif/lean}
lake build "$@" 2>&1 | grep -v "^trace" | awk '/^error/{p=1} /^warning/{p=0} /^(✔|⚠|✖|Build|Some)/{p=1} p' | head -${LINES_MAX:-120}
