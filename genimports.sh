#!/bin/sh
# regenerate lean/Verif.lean: one import per module
cd "$(dirname "$0")/lean" && find Verif -name '*.lean' | sed 's/\.lean$//; s#/#.#g; s/^/import /' | LC_ALL=C sort > Verif.lean
