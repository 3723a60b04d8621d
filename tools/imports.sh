#!/bin/sh
# regenerate lean/Verif.lean
cd "$(dirname "$0")/../lean" && ls Verif/*/*.lean | sort | sed 's/\.lean$//; s,/,.,g; s/^/import /' > Verif.lean
