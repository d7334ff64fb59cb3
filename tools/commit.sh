#!/bin/sh
# regenerate the root module and the manifest, build, and commit only if the build succeeds
set -e
cd /verif/lean
(cd Verif; find . -name '*.lean' | sed 's#^\./##; s#/#.#g; s#\.lean$##' | sort | sed 's/^/import Verif./') > Verif.lean
python3 /verif/tools/gen_manifest.py
if ! lake build > /tmp/build.log 2>&1; then
  grep -A12 '^error' /tmp/build.log | head -60
  echo "BUILD FAILED, not committed"; exit 1
fi
cd /verif
git add -A
git commit -qm "$1"
git log --oneline | head -1
