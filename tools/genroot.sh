#!/bin/bash
# regenerate lean/Verif.lean with one import per module
cd "$(dirname "$0")/../lean" && find Verif -name '*.lean' | sort | sed 's|/|.|g; s|\.lean$||; s|^|import |' > Verif.lean
