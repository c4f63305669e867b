#!/bin/sh
# Regenerate lean/Verif.lean: import every module under lean/Verif.
cd "$(dirname "$0")/../lean" || exit 1
for d in Model Spec Proofs Props Suite; do
  ls Verif/$d/*.lean | sed 's#/#.#g; s#\.lean$##; s#^#import #'
done > Verif.lean
