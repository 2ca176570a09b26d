#!/bin/sh
# regenerate lean/Verif.lean from the modules present
cd "$(dirname "$0")/../lean" && find Verif -name '*.lean' | sort | sed 's/\.lean$//; s|/|.|g; s/^/import /' > Verif.lean
