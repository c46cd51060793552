#!/bin/sh
# Regenerate Verif.lean so that it imports every module.
cd /verif/lean && find Verif -name '*.lean' | sort | sed 's/\.lean$//; s#/#.#g; s/^/import /' > Verif.lean
# Catch clashes between modules before a commit: fails if the build fails.
lake build > /tmp/sync.out 2>&1 && exit 0
grep -A6 '^error' /tmp/sync.out
exit 1
