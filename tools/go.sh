set -e
bash /tmp/w/all.sh 2>&1 | tail -8
python3 /tmp/mutw/tight.py | tail -2; python3 /tmp/mutw/log.py | tail -4
mkdir -p /verif/tools; cp /tmp/w/* /tmp/mutw/*.py /tmp/mutw/renames.json /verif/tools/
cd /verif/lean && lake build 2>&1 | grep -E "error|Build completed|^warning.*(sorry)" | tail
