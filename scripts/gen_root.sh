#!/bin/sh
# Writes lean/Verif.lean: imports every property module.
cd "$(dirname "$0")/../lean" || exit 1
ls Verif/Props/*.lean | sed 's|/|.|g; s|\.lean$||; s|^|import |' > Verif.lean
